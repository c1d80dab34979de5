import Verif.MerkleSpec
import Verif.CodecRel
/-
Proof and update cells: writing and reading.
-/
set_option linter.unusedVariables false
set_option linter.unusedSimpArgs false
namespace Verif
namespace Merkle
open Boc (Below Clash below_apart)

/-- A value with 32-byte hash and 16-bit depth. -/
def Proof.Ok (p : Proof) : Prop := p.hash.length = 32 ∧ p.depth < 2 ^ 16

/-- Specification of the data of a proof cell. -/
def Proof.bits (p : Proof) : Bits := natBits 8 3 ++ (bytesToBits p.hash ++ natBits 16 p.depth)

def Proof.enc (p : Proof) : Enc CCell := Enc.bits (bytesToBits p.hash) ++ (Enc.bits (natBits 16 p.depth) ++ Enc.ref p.cell)

theorem Proof.codes : Codes Proof.Ok (fun p => do Wr.u256 p.hash; Wr.u16 p.depth; Wr.ref p.cell) Proof.fields
    (Canon Proof.Ok Proof.enc) Proof.enc := by
  refine ((Codes.u256.pair (Codes.u16.pair Codes.ref)).iso Proof.Ok (fun p => ⟨p.1, p.2.1, p.2.2⟩) (fun a => (a.hash, a.depth, a.cell))
    (fun a h => ⟨⟨h.1, h.2, trivial⟩, rfl⟩) (fun p h => ⟨⟨h.1, h.2.1⟩, rfl⟩)).cast (fun _ => Iff.rfl) (fun _ _ => rfl) ?_ (fun v e => ?_) (fun _ _ => rfl)
  · unfold Proof.fields pairLoad
    simp only [Prog.bind_assoc', Prog.pure_bind']
  · constructor
    · rintro ⟨h, e1, e2, h1, ⟨e3, e4, h3, h4, rfl⟩, rfl⟩
      exact ⟨h, by rw [h1.2, h3.2, h4.2]; rfl⟩
    · rintro ⟨h, rfl⟩
      exact ⟨h, _, _, ⟨h.1, rfl⟩, ⟨_, _, ⟨h.2, rfl⟩, ⟨trivial, rfl⟩, rfl⟩, rfl⟩

/-- The whole slice of a finished cell shows its contents. -/
theorem wholeSlice_spec {H : Hasher} {c : CCell} (h : Built H c) :
    (wholeSlice c).WF ∧ (wholeSlice c).contents = (c.tree.bits, c.refs) := by
  have f := h.facts
  have hb := f.bitLen
  have hd := f.data
  have hr := f.refs_le
  have hwf : (wholeSlice c).WF := by
    refine ⟨Nat.zero_le _, ?_, ?_, Nat.zero_le _, ?_, ?_⟩
    · show c.bitLen ≤ _; show c.bitLen ≤ 8 * c.data.length; omega
    · show c.data.length ≤ 128; omega
    · show c.desc.referenceCount ≤ c.refs.length; rw [f.refs]; try exact Nat.le_refl _
    · exact hr
  refine ⟨hwf, ?_⟩
  unfold CSlice.contents
  have h2 : (wholeSlice c).refList = c.refs := by
    unfold CSlice.refList
    show ((c.refs.drop 0).take (c.desc.referenceCount - 0)) = c.refs
    rw [f.refs]; simp
  have h1 : (wholeSlice c).bits = c.tree.bits := by
    have ht : c.tree.bits = (bytesToBits c.data).take c.bitLen := by obtain ⟨d, n, bs, rs, hs⟩ := c; rfl
    rw [ht]
    have hlen : (wholeSlice c).bits.length = ((bytesToBits c.data).take c.bitLen).length := by
      rw [CSlice.bits_length]
      show c.bitLen - 0 = _
      rw [List.length_take, bytesToBits_length]; omega
    apply List.ext_getElem? 
    intro i
    by_cases hi : i < c.bitLen
    · rw [List.getElem?_take_of_lt hi]
      have hi' : i < 8 * c.data.length := by omega
      have e1 : (wholeSlice c).bits[i]? = some (bitAt c.data (0 + i)) := by
        show (List.map (fun i => bitAt c.data (0 + i)) (List.range (c.bitLen - 0)))[i]? = _
        rw [List.getElem?_map, List.getElem?_range (by omega)]; rfl
      have e2 : (bytesToBits c.data)[i]? = some (bitAt c.data i) := by
        unfold bytesToBits
        rw [List.getElem?_map, List.getElem?_range hi']; rfl
      rw [e1, e2, Nat.zero_add]
    · rw [List.getElem?_eq_none, List.getElem?_eq_none]
      · rw [List.length_take]; omega
      · rw [hlen, List.length_take]; omega
  rw [h1, h2]

theorem needs_new {n r : Nat} (hn : n ≤ 1023) (hr : r ≤ 4) : Wr.needs n r (CellB.new : CellB CCell) = (.ok (), CellB.new) := by
  unfold Wr.needs
  rw [Wr.hasCapacity_iff CellB.wf_new (by omega), if_pos]
  have h1 : (CellB.new : CellB CCell).inner.bits.length = 0 := rfl
  have h2 : (CellB.new : CellB CCell).refs.length = 0 := rfl
  rw [h1, h2]
  exact decide_eq_true ⟨by omega, by omega⟩

theorem bind_run {σ α β : Type} {m : Prog σ α} {k : α → Prog σ β} {s s' : σ} {a : α} (h : m s = (.ok a, s')) :
    (m >>= k) s = k a s' := by
  show Prog.bind m k s = _
  unfold Prog.bind
  rw [h]

/-- The common start of the two `store` functions on an empty builder. -/
theorem store_run {n r : Nat} (hn : n ≤ 1023) (hr : r ≤ 4) (w : Wr CCell Unit) :
    ((do Wr.needs n r; fun b => (.ok (), { b with exotic := true }); w) : Wr CCell Unit) CellB.new = w { (CellB.new : CellB CCell) with exotic := true } := by
  rw [bind_run (needs_new hn hr)]
  rfl

theorem append_enc {a b : Bits} {x y : List CCell} {e : Enc CCell} (h : ((a, x) : Enc CCell) = (b, y) ++ e) :
    a = b ++ e.1 ∧ x = y ++ e.2 := by
  have h1 := congrArg Prod.fst h
  have h2 := congrArg Prod.snd h
  exact ⟨h1, h2⟩

/-- Loading a proof from a cell succeeds exactly on exotic cells that consist of the tag, the hash and the depth of level 0 of
the only reference. -/
theorem C36_load {H : Hasher} {c : CCell} (hc : Built H c) (p : Proof) :
    Proof.loadFromCell c = .ok p ↔ c.desc.isExotic = true ∧ c.tree.bits = p.bits ∧ c.refs = [p.cell] ∧ p.Ok ∧
      p.cell.hash 0 = p.hash ∧ p.cell.depth 0 = p.depth := by
  have f := hc.facts
  obtain ⟨sw, sc⟩ := wholeSlice_spec hc
  constructor
  · intro h
    unfold Proof.loadFromCell at h
    cases he : c.desc.isExotic with
    | false => rw [he] at h; cases h
    | true =>
      rw [he] at h
      simp only [Bool.not_true, Bool.false_eq_true, if_false] at h
      by_cases hsz : c.bitLen ≠ 280 ∨ c.desc.referenceCount ≠ 1
      · rw [if_pos hsz] at h; cases h
      · rw [if_neg hsz] at h
        rcases ht : Rd.u8 (wholeSlice c) with ⟨r, s⟩
        rw [ht] at h
        cases r with
        | error e => cases h
        | ok tag =>
          dsimp only at h
          by_cases htag : tag ≠ CellType.merkleProof.toByte.toNat
          · rw [if_pos htag] at h; cases h
          · rw [if_neg htag] at h
            rcases hf : Proof.fields s with ⟨r, s'⟩
            rw [hf] at h
            cases r with
            | error e => cases h
            | ok res =>
              dsimp only at h
              split at h
              · rename_i hm
                injection h with h
                subst h
                obtain ⟨e1, hr1, hc1, hw1⟩ := Codes.u8.exact _ _ _ sw ht
                obtain ⟨e2, hr2, hc2, hw2⟩ := Proof.codes.exact _ _ _ hw1 hf
                have h3 : tag = 3 := by
                  have : CellType.merkleProof.toByte.toNat = 3 := rfl
                  omega
                rw [sc, hc2, hr1.2, hr2.2, h3] at hc1
                obtain ⟨g1, g2⟩ := append_enc hc1
                have hlen : c.tree.bits.length = 280 := by rw [f.len]; omega
                have hrl : c.refs.length = 1 := by rw [← f.refs]; omega
                have hP : res.enc = (bytesToBits res.hash ++ natBits 16 res.depth, [res.cell]) := rfl
                rw [hP] at g1 g2
                have g1 : c.tree.bits = natBits 8 3 ++ ((bytesToBits res.hash ++ natBits 16 res.depth) ++ s'.contents.1) := g1
                have g2 : c.refs = [res.cell] ++ s'.contents.2 := g2
                have hl1 : s'.contents.1 = [] := by
                  have := congrArg List.length g1
                  rw [hlen] at this
                  simp only [List.length_append, bytesToBits_length, natBits_length, hr2.1.1] at this
                  exact List.eq_nil_of_length_eq_zero (by omega)
                have hl2 : s'.contents.2 = [] := by
                  have := congrArg List.length g2
                  rw [hrl] at this
                  simp only [List.length_append, List.length_cons, List.length_nil] at this
                  exact List.eq_nil_of_length_eq_zero (by omega)
                rw [hl1, List.append_nil] at g1
                rw [hl2, List.append_nil] at g2
                exact ⟨rfl, g1, g2, hr2.1, hm.1, hm.2⟩
              · cases h
  · rintro ⟨he, hb, hr, hok, hh, hd⟩
    have hlen : c.bitLen = 280 := by
      rw [← f.len, hb]
      unfold Proof.bits
      simp only [List.length_append, bytesToBits_length, natBits_length, hok.1]
    have hrc : c.desc.referenceCount = 1 := by rw [f.refs, hr]; rfl
    rw [hb, hr] at sc
    have sc : (wholeSlice c).contents = Enc.bits (natBits 8 3) ++ (p.enc ++ Enc.nil) := by
      rw [sc, Enc.append_nil]; rfl
    obtain ⟨s1, e1, w1, c1, _⟩ := Codes.u8.reads 3 _ ⟨by decide, rfl⟩ (wholeSlice c) _ sw sc
    obtain ⟨s2, e2, w2, c2, _⟩ := Proof.codes.reads p _ ⟨hok, rfl⟩ s1 _ w1 c1
    unfold Proof.loadFromCell
    rw [he, if_neg (by simp), if_neg (by omega), e1]
    dsimp only
    rw [if_neg (by decide), e2]
    dsimp only
    rw [if_pos ⟨hh, hd⟩]

theorem typeOf_tag {n : Nat} (hn : n < 256) {rest : Bits} : typeOf true (natBits 8 n ++ rest) = exoticTypeOf n := by
  unfold typeOf
  rw [if_pos rfl, if_neg (by rw [List.length_append, natBits_length]; omega)]
  congr 1
  unfold byteAt
  rw [Nat.mul_zero, List.drop_zero, List.take_left' (natBits_length 8 n), natOfBits_natBits]
  omega

/-- Storing a proof whose cell leaves room for one more level of depth gives a proof cell over it. -/
theorem C36_store {H : Hasher} {p : Proof} (hok : p.Ok) (hp : Built H p.cell) (hd : ∀ l, (p.cell.depth l) < 65535) :
    ∃ b c, p.store CellB.new = (.ok (), b) ∧ b.build H = .ok c ∧ Built H c ∧ c.tree = .mk true p.bits [p.cell.tree] ∧ c.refs = [p.cell] := by
  have hw : Writes (do Wr.u8 3; Wr.u256 p.hash; Wr.u16 p.depth; Wr.ref p.cell) (Enc.bits (natBits 8 3) ++ p.enc) :=
    Writes.seq (Codes.u8.writes 3 (by decide)) (Proof.codes.writes p hok)
  have hnew : (CellB.new : CellB CCell).WF := CellB.wf_new
  have hnew' : ({ (CellB.new : CellB CCell) with exotic := true }).WF := ⟨hnew.inner, hnew.refs⟩
  have hlen : (p.bits).length = 280 := by
    unfold Proof.bits
    simp only [List.length_append, bytesToBits_length, natBits_length, hok.1]
  have hcont : ({ (CellB.new : CellB CCell) with exotic := true }).contents ++ (Enc.bits (natBits 8 3) ++ p.enc : Enc CCell) = ((p.bits, [p.cell]) : Enc CCell) := by
    show (([], []) : Enc CCell) ++ _ = _
    rfl
  obtain ⟨b, e1, w1, c1, x1⟩ := (hw _ hnew').1 (by
    rw [hcont]
    refine ⟨?_, ?_⟩
    · show p.bits.length ≤ 1023; omega
    · show 1 ≤ 4; decide)
  rw [hcont] at c1
  have hrun : p.store CellB.new = (.ok (), b) := by
    exact (store_run (by decide) (by decide) _).trans e1
  have hbits : b.inner.bits = p.bits := congrArg Prod.fst c1
  have hrefs : b.refs = [p.cell] := congrArg Prod.snd c1
  have hbuild := (C10_build H w1 (by rw [hrefs]; intro r hr; rw [List.mem_singleton.mp hr]; exact hp)).1
  rw [x1, hbits, hrefs] at hbuild
  have hwf : (Cell.mk true p.bits [p.cell.tree]).WF H := by
    unfold Cell.WF
    refine ⟨⟨.merkleProof, ?_, ?_, ?_⟩, hp.facts.wf, trivial⟩
    · exact typeOf_tag (by decide)
    · unfold shape
      dsimp only
      rw [if_pos ⟨hlen, rfl⟩]; simp
    · intro l _ _ i hi
      rw [Cell.infoList_eq] at hi
      have : i = p.cell.tree.info H := by simpa using hi
      rw [this, ← hp.facts.agrees.depth]
      exact hd _
  obtain ⟨c, g1, g2, g3, g4⟩ := hbuild hwf
  exact ⟨b, c, hrun, g1, g2, g3, g4⟩

/-! ### Updates -/

/-- 32-byte hashes and 16-bit depths. -/
def Update.Ok (u : Update) : Prop := (u.oldHash.length = 32 ∧ u.newHash.length = 32) ∧ u.oldDepth < 2 ^ 16 ∧ u.newDepth < 2 ^ 16

/-- Specification of the data of an update cell. -/
def Update.bits (u : Update) : Bits :=
  natBits 8 4 ++ (bytesToBits u.oldHash ++ (bytesToBits u.newHash ++ (natBits 16 u.oldDepth ++ natBits 16 u.newDepth)))

def Update.enc (u : Update) : Enc CCell := Enc.bits (bytesToBits u.oldHash) ++ (Enc.bits (bytesToBits u.newHash) ++
  (Enc.bits (natBits 16 u.oldDepth) ++ (Enc.bits (natBits 16 u.newDepth) ++ (Enc.ref u.old ++ Enc.ref u.new))))

theorem Update.codes : Codes Update.Ok
    (fun u => do Wr.u256 u.oldHash; Wr.u256 u.newHash; Wr.u16 u.oldDepth; Wr.u16 u.newDepth; Wr.ref u.old; Wr.ref u.new) Update.fields
    (Canon Update.Ok Update.enc) Update.enc := by
  refine ((Codes.u256.pair (Codes.u256.pair (Codes.u16.pair (Codes.u16.pair (Codes.ref.pair Codes.ref))))).iso Update.Ok
    (fun p => ⟨p.1, p.2.1, p.2.2.1, p.2.2.2.1, p.2.2.2.2.1, p.2.2.2.2.2⟩) (fun a => (a.oldHash, a.newHash, a.oldDepth, a.newDepth, a.old, a.new))
    (fun a h => ⟨⟨h.1.1, h.1.2, h.2.1, h.2.2, trivial, trivial⟩, rfl⟩)
    (fun p h => ⟨⟨⟨h.1, h.2.1⟩, h.2.2.1, h.2.2.2.1⟩, rfl⟩)).cast (fun _ => Iff.rfl) (fun _ _ => rfl) ?_ (fun v e => ?_) (fun _ _ => rfl)
  · unfold Update.fields pairLoad
    simp only [Prog.bind_assoc', Prog.pure_bind']
  · constructor
    · rintro ⟨h, e1, e2, h1, ⟨e3, e4, h3, ⟨e5, e6, h5, ⟨e7, e8, h7, ⟨e9, e10, h9, h10, rfl⟩, rfl⟩, rfl⟩, rfl⟩, rfl⟩
      exact ⟨h, by rw [h1.2, h3.2, h5.2, h7.2, h9.2, h10.2]; rfl⟩
    · rintro ⟨h, rfl⟩
      exact ⟨h, _, _, ⟨h.1.1, rfl⟩, ⟨_, _, ⟨h.1.2, rfl⟩, ⟨_, _, ⟨h.2.1, rfl⟩, ⟨_, _, ⟨h.2.2, rfl⟩, ⟨_, _, ⟨trivial, rfl⟩, ⟨trivial, rfl⟩, rfl⟩, rfl⟩, rfl⟩, rfl⟩, rfl⟩

/-- The two depths are stored as one 32-bit number. -/
theorem depths_word {a b : Nat} (ha : a < 2 ^ 16) (hb : b < 2 ^ 16) : natBits 32 (a * 65536 + b) = natBits 16 a ++ natBits 16 b := by
  apply natOfBits_inj
  · simp
  · rw [natOfBits_natBits, natOfBits_append, natOfBits_natBits, natOfBits_natBits, natBits_length]
    omega

/-- Loading an update from a cell succeeds exactly on exotic cells that consist of the tag and the hashes and depths of
level 0 of the two references. -/
theorem C38_load {H : Hasher} {c : CCell} (hc : Built H c) (u : Update) :
    Update.loadFromCell c = .ok u ↔ c.desc.isExotic = true ∧ c.tree.bits = u.bits ∧ c.refs = [u.old, u.new] ∧ u.Ok ∧
      (u.old.hash 0 = u.oldHash ∧ u.old.depth 0 = u.oldDepth) ∧ u.new.hash 0 = u.newHash ∧ u.new.depth 0 = u.newDepth := by
  have f := hc.facts
  obtain ⟨sw, sc⟩ := wholeSlice_spec hc
  constructor
  · intro h
    unfold Update.loadFromCell at h
    cases he : c.desc.isExotic with
    | false => rw [he] at h; cases h
    | true =>
      rw [he] at h
      simp only [Bool.not_true, Bool.false_eq_true, if_false] at h
      by_cases hsz : c.bitLen ≠ 552 ∨ c.desc.referenceCount ≠ 2
      · rw [if_pos hsz] at h; cases h
      · rw [if_neg hsz] at h
        rcases ht : Rd.u8 (wholeSlice c) with ⟨r, s⟩
        rw [ht] at h
        cases r with
        | error e => cases h
        | ok tag =>
          dsimp only at h
          by_cases htag : tag ≠ CellType.merkleUpdate.toByte.toNat
          · rw [if_pos htag] at h; cases h
          · rw [if_neg htag] at h
            rcases hf : Update.fields s with ⟨r, s'⟩
            rw [hf] at h
            cases r with
            | error e => cases h
            | ok res =>
              dsimp only at h
              split at h
              · rename_i hm
                injection h with h
                subst h
                obtain ⟨e1, hr1, hc1, hw1⟩ := Codes.u8.exact _ _ _ sw ht
                obtain ⟨e2, hr2, hc2, hw2⟩ := Update.codes.exact _ _ _ hw1 hf
                have h3 : tag = 4 := by
                  have : CellType.merkleUpdate.toByte.toNat = 4 := rfl
                  omega
                rw [sc, hc2, hr1.2, hr2.2, h3] at hc1
                obtain ⟨g1, g2⟩ := append_enc hc1
                have hlen : c.tree.bits.length = 552 := by rw [f.len]; omega
                have hrl : c.refs.length = 2 := by rw [← f.refs]; omega
                have hP : res.enc = (bytesToBits res.oldHash ++ (bytesToBits res.newHash ++ (natBits 16 res.oldDepth ++ (natBits 16 res.newDepth ++ []))), [res.old, res.new]) := rfl
                rw [hP, List.append_nil] at g1 g2
                have g1 : c.tree.bits = natBits 8 4 ++ ((bytesToBits res.oldHash ++ (bytesToBits res.newHash ++ (natBits 16 res.oldDepth ++ natBits 16 res.newDepth))) ++ s'.contents.1) := g1
                have g2 : c.refs = [res.old, res.new] ++ s'.contents.2 := g2
                have hl1 : s'.contents.1 = [] := by
                  have := congrArg List.length g1
                  rw [hlen] at this
                  simp only [List.length_append, bytesToBits_length, natBits_length, hr2.1.1.1, hr2.1.1.2] at this
                  exact List.eq_nil_of_length_eq_zero (by omega)
                have hl2 : s'.contents.2 = [] := by
                  have := congrArg List.length g2
                  rw [hrl] at this
                  simp only [List.length_append, List.length_cons, List.length_nil] at this
                  exact List.eq_nil_of_length_eq_zero (by omega)
                rw [hl1, List.append_nil] at g1
                rw [hl2, List.append_nil] at g2
                exact ⟨rfl, g1, g2, hr2.1, ⟨hm.1, hm.2.1⟩, hm.2.2⟩
              · cases h
  · rintro ⟨he, hb, hr, hok, ⟨hh, hd⟩, hh', hd'⟩
    have hlen : c.bitLen = 552 := by
      rw [← f.len, hb]
      unfold Update.bits
      simp only [List.length_append, bytesToBits_length, natBits_length, hok.1.1, hok.1.2]
    have hrc : c.desc.referenceCount = 2 := by rw [f.refs, hr]; rfl
    rw [hb, hr] at sc
    have sc : (wholeSlice c).contents = Enc.bits (natBits 8 4) ++ (u.enc ++ Enc.nil) := by
      have hP : u.enc = (bytesToBits u.oldHash ++ (bytesToBits u.newHash ++ (natBits 16 u.oldDepth ++ (natBits 16 u.newDepth ++ []))), [u.old, u.new]) := rfl
      rw [sc, Enc.append_nil, hP, List.append_nil]; rfl
    obtain ⟨s1, e1, w1, c1, _⟩ := Codes.u8.reads 4 _ ⟨by decide, rfl⟩ (wholeSlice c) _ sw sc
    obtain ⟨s2, e2, w2, c2, _⟩ := Update.codes.reads u _ ⟨hok, rfl⟩ s1 _ w1 c1
    unfold Update.loadFromCell
    rw [he, if_neg (by simp), if_neg (by omega), e1]
    dsimp only
    rw [if_neg (by decide), e2]
    dsimp only
    rw [if_pos ⟨hh, hd, hh', hd'⟩]

/-- Storing an update whose cells leave room for one more level of depth gives an update cell over them. -/
theorem C38_store {H : Hasher} {u : Update} (hok : u.Ok) (ho : Built H u.old) (hn : Built H u.new) (hd : ∀ l, u.old.depth l < 65535)
    (hd' : ∀ l, u.new.depth l < 65535) :
    ∃ b c, u.store CellB.new = (.ok (), b) ∧ b.build H = .ok c ∧ Built H c ∧ c.tree = .mk true u.bits [u.old.tree, u.new.tree] ∧
      c.refs = [u.old, u.new] := by
  have hw32 : Writes (Wr.u32 (u.oldDepth * 65536 + u.newDepth) : Wr CCell Unit) (Enc.bits (natBits 16 u.oldDepth ++ natBits 16 u.newDepth)) := by
    rw [← depths_word hok.2.1 hok.2.2]
    exact Codes.u32.writes _ (by have := hok.2.1; have := hok.2.2; omega)
  have hw : Writes (do Wr.u8 4; Wr.u256 u.oldHash; Wr.u256 u.newHash; Wr.u32 (u.oldDepth * 65536 + u.newDepth); Wr.ref u.old; Wr.ref u.new)
      (Enc.bits (natBits 8 4) ++ (Enc.bits (bytesToBits u.oldHash) ++
        (Enc.bits (bytesToBits u.newHash) ++ (Enc.bits (natBits 16 u.oldDepth ++ natBits 16 u.newDepth) ++ (Enc.ref u.old ++ Enc.ref u.new))))) :=
    Writes.seq (Codes.u8.writes 4 (by decide)) (Writes.seq (Codes.u256.writes u.oldHash hok.1.1) (Writes.seq (Codes.u256.writes u.newHash hok.1.2)
      (Writes.seq hw32 (Writes.seq (Codes.ref.writes u.old trivial) (Codes.ref.writes u.new trivial)))))
  have hnew : (CellB.new : CellB CCell).WF := CellB.wf_new
  have hnew' : ({ (CellB.new : CellB CCell) with exotic := true }).WF := ⟨hnew.inner, hnew.refs⟩
  have hlen : (u.bits).length = 552 := by
    unfold Update.bits
    simp only [List.length_append, bytesToBits_length, natBits_length, hok.1.1, hok.1.2]
  have hcont : ({ (CellB.new : CellB CCell) with exotic := true }).contents ++ (Enc.bits (natBits 8 4) ++ (Enc.bits (bytesToBits u.oldHash) ++
      (Enc.bits (bytesToBits u.newHash) ++ (Enc.bits (natBits 16 u.oldDepth ++ natBits 16 u.newDepth) ++ (Enc.ref u.old ++ Enc.ref u.new)))) : Enc CCell)
        = ((u.bits, [u.old, u.new]) : Enc CCell) := by
    have : u.bits = [] ++ (natBits 8 4 ++ (bytesToBits u.oldHash ++ (bytesToBits u.newHash ++ ((natBits 16 u.oldDepth ++ natBits 16 u.newDepth) ++ ([] ++ []))))) := by
      simp [Update.bits]
    rw [this]
    rfl
  obtain ⟨b, e1, w1, c1, x1⟩ := (hw _ hnew').1 (by
    rw [hcont]
    refine ⟨?_, ?_⟩
    · show u.bits.length ≤ 1023; omega
    · show 2 ≤ 4; decide)
  rw [hcont] at c1
  have hrun : u.store CellB.new = (.ok (), b) := by
    exact (store_run (by decide) (by decide) _).trans e1
  have hbits : b.inner.bits = u.bits := congrArg Prod.fst c1
  have hrefs : b.refs = [u.old, u.new] := congrArg Prod.snd c1
  have hbuild := (C10_build H w1 (by
    rw [hrefs]; intro r hr
    rcases List.mem_cons.mp hr with rfl | hr
    · exact ho
    · rw [List.mem_singleton.mp hr]; exact hn)).1
  rw [x1, hbits, hrefs] at hbuild
  have hwf : (Cell.mk true u.bits [u.old.tree, u.new.tree]).WF H := by
    unfold Cell.WF
    refine ⟨⟨.merkleUpdate, ?_, ?_, ?_⟩, ho.facts.wf, hn.facts.wf, trivial⟩
    · exact typeOf_tag (by decide)
    · unfold shape
      dsimp only
      rw [if_pos ⟨hlen, rfl⟩]; simp
    · intro l _ _ i hi
      rw [Cell.infoList_eq] at hi
      have : i = u.old.tree.info H ∨ i = u.new.tree.info H := by simpa using hi
      rcases this with this | this
      · rw [this, ← ho.facts.agrees.depth]; exact hd _
      · rw [this, ← hn.facts.agrees.depth]; exact hd' _
  obtain ⟨c, g1, g2, g3, g4⟩ := hbuild hwf
  exact ⟨b, c, hrun, g1, g2, g3, g4⟩

end Merkle
end Verif
