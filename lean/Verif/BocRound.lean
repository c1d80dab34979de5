import Verif.BocDeProps
/-
Lemmas for the round trip of bags of cells: the reader on the bytes of the writer.
-/
set_option linter.unusedVariables false
set_option linter.unusedSimpArgs false
namespace Verif
namespace Boc

/-! ### Sizes of numbers -/

theorem bytesToFit_spec {l : Nat} (h0 : 0 < l) (h : l < 2 ^ 64) : 1 ≤ bytesToFit l ∧ bytesToFit l ≤ 8 ∧ l < 256 ^ bytesToFit l := by
  have hl : l.log2 < 64 := (Nat.log2_lt (by omega)).mpr h
  have hlt := Nat.lt_log2_self (n := l)
  have hb : bytesToFit l = 8 - (63 - l.log2) / 8 := by
    unfold bytesToFit
    rw [if_neg (by omega)]
  refine ⟨by omega, by omega, ?_⟩
  rw [hb, show (256 : Nat) = 2 ^ 8 from rfl, ← Nat.pow_mul]
  exact Nat.lt_of_lt_of_le hlt (Nat.pow_le_pow_right (by omega) (by omega))

theorem bytesToFit_u32 {l : Nat} (h0 : 0 < l) (h : l < 2 ^ 32) : bytesToFit l ≤ 4 := by
  have hl : l.log2 < 32 := (Nat.log2_lt (by omega)).mpr h
  unfold bytesToFit
  rw [if_neg (by omega)]
  omega

/-! ### The written descriptor -/

theorem d1_masked (x : Byte) :
    let y := x &&& ~~~ 0x10#8
    y &&& 7 = x &&& 7 ∧ (y &&& 8) = (x &&& 8) ∧ y >>> 5 = x >>> 5 ∧ y &&& 0x10 = 0 := by
  have : ∀ k : Fin 256, let x := BitVec.ofNat 8 k; let y := x &&& ~~~ 0x10#8
      y &&& 7 = x &&& 7 ∧ (y &&& 8) = (x &&& 8) ∧ y >>> 5 = x >>> 5 ∧ y &&& 0x10 = 0 := by decide +kernel
  have := this ⟨x.toNat, x.isLt⟩
  simp only [BitVec.ofNat_toNat, BitVec.setWidth_eq] at this
  exact this

theorem descOf_true (w : Writer) (c : CCell) (h : w.withoutHashes = true) : w.descOf c = ⟨c.desc.d1 &&& ~~~ 0x10#8, c.desc.d2⟩ := by
  unfold Writer.descOf; rw [h]; rfl

theorem descOf_false (w : Writer) (c : CCell) (h : w.withoutHashes = false) : w.descOf c = c.desc := by
  have : c.desc.d1 &&& ~~~ (0 : BitVec 8) = c.desc.d1 := by
    rw [show ~~~ (0 : BitVec 8) = BitVec.allOnes 8 from by decide, BitVec.and_allOnes]
  unfold Writer.descOf
  rw [h]
  show CellDescriptor.mk (c.desc.d1 &&& ~~~ (0 : BitVec 8)) c.desc.d2 = c.desc
  rw [this]

theorem descOf_facts (w : Writer) (c : CCell) :
    (w.descOf c).referenceCount = c.desc.referenceCount ∧ (w.descOf c).isExotic = c.desc.isExotic ∧ (w.descOf c).levelMask = c.desc.levelMask ∧
    (w.descOf c).d2 = c.desc.d2 ∧ (w.descOf c).storeHashes = (!w.withoutHashes && c.desc.storeHashes) := by
  cases hw : w.withoutHashes with
  | false =>
    rw [descOf_false w c hw]
    exact ⟨rfl, rfl, rfl, rfl, by simp⟩
  | true =>
    obtain ⟨a, b, e, f⟩ := d1_masked c.desc.d1
    rw [descOf_true w c hw]
    refine ⟨?_, ?_, ?_, rfl, ?_⟩
    · exact congrArg BitVec.toNat a
    · exact congrArg (· != 0) b
    · exact e
    · exact congrArg (· != 0) f

theorem not_absent {d : CellDescriptor} (h : d.referenceCount ≤ 4) : d.isAbsent = false := by
  cases hd : d.isAbsent with
  | false => rfl
  | true =>
    unfold CellDescriptor.isAbsent at hd
    have : d.d1 = 0x0f#8 := by simpa using hd
    unfold CellDescriptor.referenceCount at h
    rw [this] at h
    exact absurd h (by decide)

theorem flatMap_length {α : Type} {k : Nat} {f : α → List Byte} : ∀ (l : List α), (∀ a ∈ l, (f a).length = k) → (l.flatMap f).length = l.length * k
  | [], _ => by simp
  | a :: l, h => by
    rw [List.flatMap_cons, List.length_append, h a List.mem_cons_self, flatMap_length l fun x hx => h x (List.mem_cons_of_mem _ hx),
      List.length_cons, Nat.succ_mul, Nat.add_comm]

theorem hashBytes_length {H : Hasher} {c : CCell} (hb : Built H c) (d : CellDescriptor) : (hashBytes d c).length = hashLen d := by
  unfold hashBytes hashLen
  split
  · have hl := (C08_iter _ (CellDescriptor.levelMask_lt d)).2
    rw [List.length_append, flatMap_length (k := 32) _ (fun l _ => ?_), flatMap_length (k := 2) _ (fun _ _ => rfl), hl]
    · omega
    · rw [hb.facts.agrees.hash]
      exact Cell.info_hash_len H _ hb.facts.wf l
  · rfl

/-! ### The bytes of a cell -/

/-- The bytes of the references of a cell. -/
def refBytes (w : Writer) (refSize : Nat) (rs : List CCell) : List Byte :=
  rs.flatMap fun r => match w.find r.reprHash with
    | some i => beBytes refSize (w.count - i - 1)
    | none => []

theorem cellBytes_shape {H : Hasher} {w : Writer} {c : CCell} (hb : Built H c) (hn : Normal c) (hf : ∀ r ∈ c.refs, (w.find r.reprHash).isSome)
    (refSize : Nat) : RawShape refSize (w.cellBytes refSize c) (w.descOf c) (hashBytes (w.descOf c) c) c.data (refBytes w refSize c.refs) := by
  obtain ⟨f1, f2, f3, f4, f5⟩ := descOf_facts w c
  have fc := hb.facts
  have hbl : (w.descOf c).byteLen = c.desc.byteLen := by unfold CellDescriptor.byteLen; rw [f4]
  have hlen : c.data.length = (w.descOf c).byteLen := by
    rw [fc.data, hbl]
    have := (C07_d2 c.bitLen fc.bitLen c.desc.d1).1
    rw [← fc.d2] at this
    exact this.symm
  have htag : bytesToBits c.data = tagged ((bytesToBits c.data).take c.bitLen) := by
    have : c.tree.bits = (bytesToBits c.data).take c.bitLen := by cases c; rfl
    rw [← this]; exact fc.tagged
  refine ⟨?_, hashBytes_length hb _, hlen, ?_, not_absent (by rw [f1, fc.refs]; exact fc.refs_le), by rw [f1, fc.refs]; exact fc.refs_le, ?_, ?_⟩
  · unfold Writer.cellBytes refBytes
    simp only [List.append_assoc, List.cons_append, List.nil_append]
    rfl
  · unfold refBytes
    rw [flatMap_length (k := refSize) _ (fun r hr => ?_), f1, fc.refs]
    obtain ⟨i, hi⟩ := Option.isSome_iff_exists.mp (hf r hr)
    rw [hi]; exact beBytes_length _ _
  · rw [f1, f2, f3, f5]
    have := hn.1
    cases w.withoutHashes with
    | true => rfl
    | false => simpa using this
  · exact (decodeBitLen_unique hlen fc.bitLen (by rw [f4]; exact fc.d2) fc.data htag).2

theorem readCells_bytes {refSize : Nat} {f : CCell → List Byte} : ∀ (l : List CCell) (rest : List Byte),
    (∀ c ∈ l, ∃ d hs data refs, RawShape refSize (f c) d hs data refs) → readCells refSize l.length (l.flatMap f ++ rest) = .ok (l.map f, rest)
  | [], rest, _ => rfl
  | c :: l, rest, h => by
    obtain ⟨d, hs, data, refs, hc⟩ := h c List.mem_cons_self
    rw [List.length_cons, readCells, List.flatMap_cons, List.append_assoc, hc.rawLen]
    simp only [bok]
    rw [next_append]
    simp only [bok]
    rw [readCells_bytes l rest fun x hx => h x (List.mem_cons_of_mem _ hx)]
    rfl

theorem readRoots_bytes {refSize n : Nat} (hn : n ≤ 256 ^ refSize) : ∀ (l : List Nat) (rest : List Byte), (∀ r ∈ l, r < n) →
    readRoots refSize n l.length ((l.flatMap fun r => beBytes refSize (n - r - 1)) ++ rest) = .ok (l.map fun r => n - r - 1, rest)
  | [], rest, _ => rfl
  | r :: l, rest, h => by
    have hr := h r List.mem_cons_self
    rw [List.length_cons, readRoots, List.flatMap_cons, List.append_assoc, nextNat_beBytes _ (by omega)]
    simp only [bok]
    rw [ensure_ok (by simp; omega)]
    simp only [bok]
    rw [readRoots_bytes hn l rest fun x hx => h x (List.mem_cons_of_mem _ hx)]
    rfl

/-! ### A ready writer -/

/-- A writer after its cells were listed. -/
structure Filled (H : Hasher) (w : Writer) : Prop where
  inv : w.Inv
  built : ∀ c ∈ w.cells, Built H c
  normal : ∀ c ∈ w.cells, Normal c
  inj : ∀ c ∈ w.cells, ∀ r ∈ c.refs, ∀ x ∈ w.cells, r.reprHash = x.reprHash → r.tree = x.tree
  size : w.dataSize = (w.cells.map fun c => byteLenFull c.desc w.withoutHashes).sum

/-- A writer that is ready to write: the facts that the roots leave behind, and the limits of the format. -/
structure Ready (H : Hasher) (w : Writer) : Prop extends Filled H w where
  count_pos : 0 < w.count
  count_lt : w.count < 2 ^ 32
  root_lt : ∀ r ∈ w.roots, r < w.count
  root_pos : w.roots ≠ []
  root_le : w.roots.length ≤ w.count
  refs_ge : w.count ≤ w.refCount + w.roots.length

namespace Filled
variable {H : Hasher} {w : Writer} (h : Filled H w)
include h

theorem found {c : CCell} (hc : c ∈ w.cells) : ∀ r ∈ c.refs, (w.find r.reprHash).isSome := by
  intro r hr
  obtain ⟨i, hi⟩ := List.mem_iff_getElem?.mp hc
  obtain ⟨j, _, hj⟩ := h.inv.closed hi r hr
  rw [hj]; rfl

theorem shape {c : CCell} (hc : c ∈ w.cells) (refSize : Nat) :
    RawShape refSize (w.cellBytes refSize c) (w.descOf c) (hashBytes (w.descOf c) c) c.data (refBytes w refSize c.refs) :=
  cellBytes_shape (h.built c hc) (h.normal c hc) (h.found hc) refSize

theorem cell_length {c : CCell} (hc : c ∈ w.cells) (refSize : Nat) :
    (w.cellBytes refSize c).length = byteLenFull c.desc w.withoutHashes + 2 + refSize * c.desc.referenceCount ∧
    (w.cellBytes refSize c).length ≤ 2 + 4 * (2 + 32) + 128 + 4 * refSize := by
  have hs := h.shape hc refSize
  obtain ⟨f1, f2, f3, f4, f5⟩ := descOf_facts w c
  have hbl : (w.descOf c).byteLen = c.desc.byteLen := by unfold CellDescriptor.byteLen; rw [f4]
  have hlv : c.desc.levelMask.level ≤ 3 := by
    unfold LevelMask.level
    have : ∀ k : Fin 8, (((BitVec.ofNat 8 k &&& 1) + ((BitVec.ofNat 8 k >>> 1) &&& 1) + ((BitVec.ofNat 8 k >>> 2) &&& 1)) : BitVec 8).toNat ≤ 3 := by
      decide +kernel
    exact LevelMask.all_lt (P := fun m => ((m &&& 1) + ((m >>> 1) &&& 1) + ((m >>> 2) &&& 1)).toNat ≤ 3) this (CellDescriptor.levelMask_lt _)
  have hd : c.data.length ≤ 128 := by
    have := (h.built c hc).facts.data
    have := (h.built c hc).facts.bitLen
    omega
  have hdl := hs.len
  have hrl := hs.refs_le
  have hlen := hs.length
  rw [f1] at hlen hrl
  have hm : c.desc.referenceCount * refSize ≤ 4 * refSize := Nat.mul_le_mul_right _ hrl
  have hhl : hashLen (w.descOf c) = if !w.withoutHashes && c.desc.storeHashes then (c.desc.levelMask.level + 1) * (32 + 2) else 0 := by
    unfold hashLen
    rw [f3, f5, Nat.mul_comm]
  have hhb : hashLen (w.descOf c) ≤ 4 * (2 + 32) := by
    rw [hhl]; split <;> omega
  refine ⟨?_, by omega⟩
  rw [hlen, hbl]
  unfold byteLenFull
  rw [hhl, Nat.mul_comm refSize]
  omega

theorem cells_length (refSize : Nat) (l : List CCell) (hl : ∀ c ∈ l, c ∈ w.cells) : (l.flatMap (w.cellBytes refSize)).length =
      (l.map fun c => byteLenFull c.desc w.withoutHashes).sum + l.length * 2 + refSize * (l.map fun c => c.desc.referenceCount).sum ∧
    (l.flatMap (w.cellBytes refSize)).length ≤ l.length * (2 + 4 * (2 + 32) + 128 + 4 * refSize) := by
  induction l with
  | nil => simp
  | cons c l ih =>
    obtain ⟨a, b⟩ := ih fun x hx => hl x (List.mem_cons_of_mem _ hx)
    obtain ⟨p, q⟩ := h.cell_length (hl c List.mem_cons_self) refSize
    simp only [List.flatMap_cons, List.length_append, List.map_cons, List.sum_cons, List.length_cons, Nat.mul_add, Nat.add_mul, Nat.one_mul]
    rw [Nat.mul_add] at b
    simp only [Nat.mul_add] at b
    constructor
    · rw [a, p]; omega
    · omega

theorem body_length : (w.cellsBytes w.stats.refSize w.cells).length = w.stats.totalCellsSize ∧
    w.stats.totalCellsSize ≤ w.count * (2 + 4 * (2 + 32) + 128 + 4 * w.stats.refSize) := by
  have hr : ∀ c ∈ w.cells.reverse, c ∈ w.cells := fun c hc => List.mem_reverse.mp hc
  obtain ⟨a, b⟩ := h.cells_length w.stats.refSize w.cells.reverse hr
  have e1 : (w.cells.reverse.map fun c => byteLenFull c.desc w.withoutHashes).sum = w.dataSize := by
    rw [List.map_reverse, List.sum_reverse_nat, h.size]
  have e2 : (w.cells.reverse.map fun c => c.desc.referenceCount).sum = w.refCount := by
    rw [List.map_reverse, List.sum_reverse_nat, h.inv.refs]
  rw [e1, e2, List.length_reverse] at a
  rw [List.length_reverse] at b
  have e3 : (w.cellsBytes w.stats.refSize w.cells).length = w.stats.totalCellsSize := a
  exact ⟨e3, by rw [← e3]; exact b⟩

end Filled

namespace Ready
variable {H : Hasher} {w : Writer} (h : Ready H w)
include h

theorem ref_size : 1 ≤ w.stats.refSize ∧ w.stats.refSize ≤ 4 ∧ w.count < 256 ^ w.stats.refSize := by
  have hp := h.count_pos
  have hl := h.count_lt
  obtain ⟨a, b, c⟩ := bytesToFit_spec hp (by omega)
  exact ⟨a, bytesToFit_u32 hp hl, c⟩

theorem offset_size : 1 ≤ w.stats.offsetSize ∧ w.stats.offsetSize ≤ 8 ∧ w.stats.totalCellsSize < 256 ^ w.stats.offsetSize := by
  obtain ⟨r1, r2, r3⟩ := h.ref_size
  have hb := h.body_length.2
  have hp := h.count_pos
  have hl := h.count_lt
  have hpos : 0 < w.stats.totalCellsSize := by
    show 0 < w.dataSize + w.count * 2 + _
    omega
  have hlt : w.stats.totalCellsSize < 2 ^ 64 := by
    have : w.count * (2 + 4 * (2 + 32) + 128 + 4 * w.stats.refSize) ≤ w.count * 282 := Nat.mul_le_mul_left _ (by omega)
    omega
  exact bytesToFit_spec hpos hlt

theorem readFlags_header (rest : List Byte) :
    readFlags ([0xb5, 0xee, 0x9c, 0x72] ++ ([BitVec.ofNat 8 w.stats.refSize ||| (if w.crc then 0x40 else 0), BitVec.ofNat 8 w.stats.offsetSize] ++ rest))
      = .ok (⟨false, w.crc, false, w.stats.refSize, true⟩, w.stats.offsetSize, rest) := by
  obtain ⟨r1, r2, _⟩ := h.ref_size
  obtain ⟨o1, o2, _⟩ := h.offset_size
  have hf : flagsOf .generic (BitVec.ofNat 8 w.stats.refSize ||| (if w.crc then 0x40 else 0)) = ⟨false, w.crc, false, w.stats.refSize, true⟩ := by
    have key : ∀ k : Fin 5, ∀ b : Bool, 
        ((BitVec.ofNat 8 k ||| (if b then 0x40 else 0) : BitVec 8) &&& 0x80 != 0) = false ∧
        ((BitVec.ofNat 8 k ||| (if b then 0x40 else 0) : BitVec 8) &&& 0x40 != 0) = b ∧
        ((BitVec.ofNat 8 k ||| (if b then 0x40 else 0) : BitVec 8) &&& 0x20 != 0) = false ∧
        ((BitVec.ofNat 8 k ||| (if b then 0x40 else 0) : BitVec 8) &&& 7).toNat = k := by decide +kernel
    obtain ⟨a, b, c, d⟩ := key ⟨w.stats.refSize, by omega⟩ w.crc
    unfold flagsOf
    dsimp only at a b c d ⊢
    rw [a, b, c, d]
  unfold readFlags
  rw [ensure_ok (by simp)]
  simp only [bok]
  rw [show (4 : Nat) = ([0xb5, 0xee, 0x9c, 0x72] : List Byte).length from rfl, next_append]
  simp only [bok, List.cons_append, List.nil_append, nextNat_one]
  rw [show Tag.fromBytes [0xb5, 0xee, 0x9c, 0x72] = some .generic from rfl]
  simp only [BitVec.ofNat_toNat, BitVec.setWidth_eq, hf]
  have ho : (BitVec.ofNat 8 w.stats.offsetSize).toNat = w.stats.offsetSize := by
    rw [BitVec.toNat_ofNat]; exact Nat.mod_eq_of_lt (by omega)
  rw [ho, ensure_ok (by rfl), ensure_ok (by simp; omega), ensure_ok (by simp; omega)]
  rfl

theorem readCounts_header {opts : Options} (hmin : opts.minRoots.getD 0 ≤ w.roots.length) (hmax : w.roots.length ≤ opts.maxRoots.getD 32) (rest : List Byte) :
    readCounts ⟨false, w.crc, false, w.stats.refSize, true⟩ w.stats.offsetSize opts
      (beBytes w.stats.refSize w.count ++ (beBytes w.stats.refSize w.roots.length ++ (beBytes w.stats.refSize 0 ++
        (beBytes w.stats.offsetSize w.stats.totalCellsSize ++ rest)))) = .ok (w.count, w.roots.length, w.stats.totalCellsSize, rest) := by
  obtain ⟨r1, r2, r3⟩ := h.ref_size
  obtain ⟨o1, o2, o3⟩ := h.offset_size
  have hrl := h.root_le
  have hrp : 0 < w.roots.length := List.length_pos_iff.mpr h.root_pos
  have hbl := h.body_length
  have hrg := h.refs_ge
  unfold readCounts
  dsimp only
  rw [ensure_ok (by simp only [List.length_append, beBytes_length, decide_eq_true_eq]; omega)]
  simp only [bok]
  rw [nextNat_beBytes _ r3]
  simp only [bok]
  rw [nextNat_beBytes _ (by omega)]
  simp only [bok]
  rw [nextNat_beBytes _ (by omega)]
  simp only [bok]
  rw [ensure_ok (by simp only [decide_eq_true_eq]; omega)]
  simp only [bok]
  rw [ensure_ok (by rfl)]
  simp only [bok]
  rw [ensure_ok (by simp only [decide_eq_true_eq]; omega)]
  simp only [bok]
  rw [ensure_ok (by rfl)]
  simp only [bok]
  rw [ensure_ok (by simp only [decide_eq_true_eq]; omega)]
  simp only [bok]
  rw [ensure_ok (by simp only [decide_eq_true_eq]; omega)]
  simp only [bok]
  rw [nextNat_beBytes _ o3]
  simp only [bok]
  have m1 : w.roots.length * w.stats.refSize ≤ w.count * w.stats.refSize := Nat.mul_le_mul_right _ hrl
  have m2 : w.count * w.stats.refSize ≤ (w.refCount + w.roots.length) * w.stats.refSize := Nat.mul_le_mul_right _ hrg
  rw [Nat.add_mul] at m2
  have m3 : w.count * (2 + w.stats.refSize) = w.count * 2 + w.count * w.stats.refSize := Nat.mul_add _ _ _
  have m4 : w.stats.totalCellsSize = w.dataSize + w.count * 2 + w.refCount * w.stats.refSize := by
    rw [Nat.mul_comm w.refCount]; rfl
  rw [ensure_ok (by simp only [decide_eq_true_eq]; omega)]
  simp only [bok]
  rw [ensure_ok (by simp only [decide_eq_true_eq]; omega)]
  simp only [bok]
  rw [ensure_ok (by simp only [decide_eq_true_eq]; exact hbl.2)]
  rfl

/-- The header that the reader gets from the bytes of the writer; all bytes are used. -/
theorem decodeRest_encode {opts : Options} (hmin : opts.minRoots.getD 0 ≤ w.roots.length) (hmax : w.roots.length ≤ opts.maxRoots.getD 32) :
    decodeRest w.encode opts = .ok (⟨w.stats.refSize, w.cells.reverse.map (w.cellBytes w.stats.refSize), w.roots.map fun r => w.count - r - 1⟩, []) := by
  obtain ⟨r1, r2, r3⟩ := h.ref_size
  have hbl := h.body_length.1
  generalize htail : (if w.crc then leBytes (crc32c (w.header ++ w.cellsBytes w.stats.refSize w.cells)) else []) = tail
  have henc : w.encode = w.header ++ w.cellsBytes w.stats.refSize w.cells ++ tail := by rw [← htail]; rfl
  have htl : tail.length = if w.crc then 4 else 0 := by
    rw [← htail]; split <;> rfl
  have hsplit : w.encode = [0xb5, 0xee, 0x9c, 0x72] ++ ([BitVec.ofNat 8 w.stats.refSize ||| (if w.crc then 0x40 else 0), BitVec.ofNat 8 w.stats.offsetSize] ++
      (beBytes w.stats.refSize w.count ++ (beBytes w.stats.refSize w.roots.length ++ (beBytes w.stats.refSize 0 ++
        (beBytes w.stats.offsetSize w.stats.totalCellsSize ++ ((w.roots.flatMap fun r => beBytes w.stats.refSize (w.count - r - 1)) ++
          (w.cellsBytes w.stats.refSize w.cells ++ tail))))))) := by
    rw [henc]
    unfold Writer.header
    simp only [List.append_assoc]
  unfold decodeRest
  rw [show readFlags w.encode = readFlags _ from congrArg _ hsplit, h.readFlags_header]
  simp only [bok]
  rw [h.readCounts_header hmin hmax]
  simp only [bok]
  have hroots : ((w.roots.flatMap fun r => beBytes w.stats.refSize (w.count - r - 1))).length = w.roots.length * w.stats.refSize :=
    flatMap_length _ fun _ _ => beBytes_length _ _
  rw [ensure_ok (by simp only [decide_eq_true_eq, List.length_append, hroots]; omega)]
  simp only [bok]
  have hro : rootsOf ⟨false, w.crc, false, w.stats.refSize, true⟩ w.count w.roots.length
      ((w.roots.flatMap fun r => beBytes w.stats.refSize (w.count - r - 1)) ++ (w.cellsBytes w.stats.refSize w.cells ++ tail))
      = .ok (w.roots.map fun r => w.count - r - 1, w.cellsBytes w.stats.refSize w.cells ++ tail) :=
    readRoots_bytes (Nat.le_of_lt r3) _ _ h.root_lt
  rw [hro]
  simp only [bok, Bool.false_eq_true, if_false, Nat.zero_add]
  rw [ensure_ok (by simp only [decide_eq_true_eq, List.length_append, hbl, htl]; exact Nat.le_refl _)]
  simp only [bok]
  rw [next_ok (Nat.zero_le _)]
  simp only [bok, List.drop_zero]
  have hcells : readCells w.stats.refSize w.count (w.cellsBytes w.stats.refSize w.cells ++ tail)
      = .ok (w.cells.reverse.map (w.cellBytes w.stats.refSize), tail) := by
    have := readCells_bytes (refSize := w.stats.refSize) (f := w.cellBytes w.stats.refSize) w.cells.reverse tail
      (fun c hc => ⟨_, _, _, _, h.shape (List.mem_reverse.mp hc) _⟩)
    rw [List.length_reverse] at this
    exact this
  rw [hcells]
  simp only [bok]
  have hend : checkEnd ⟨false, w.crc, false, w.stats.refSize, true⟩ w.stats.totalCellsSize w.encode (w.cellsBytes w.stats.refSize w.cells ++ tail) tail = .ok [] := by
    unfold checkEnd
    rw [ensure_ok (by simp only [decide_eq_true_eq, List.length_append, hbl])]
    simp only [bok]
    cases hc : w.crc with
    | false =>
      rw [hc] at htl
      have : tail = [] := List.eq_nil_of_length_eq_zero htl
      rw [this]; rfl
    | true =>
      rw [hc] at htl htail
      simp only [if_true] at htl htail ⊢
      rw [ensure_ok (by simp only [decide_eq_true_eq]; omega)]
      simp only [bok]
      rw [next_ok (by omega)]
      simp only [bok]
      have e1 : w.encode.take (w.encode.length - tail.length) = w.header ++ w.cellsBytes w.stats.refSize w.cells := by
        rw [henc, List.length_append (bs := tail), Nat.add_sub_cancel, List.take_left]
      rw [e1, htail, ensure_ok (by simp only [decide_eq_true_eq]; exact List.take_of_length_le (by omega))]
      simp only [bok]
      rw [List.drop_of_length_le (by omega)]
  rw [hend]
  rfl

end Ready

/-! ### The cells of the reader -/

/-- Parts that describe the same node as a built cell, over equal children, give an equal cell. -/
theorem remake {H : Hasher} {c : CCell} (hb : Built H c) {p : CellParts} (hp : p.Ok) (hr : ∀ r ∈ p.refs, Built H r)
    (he : p.desc.isExotic = c.desc.isExotic) (hm : p.desc.levelMask = c.desc.levelMask) (hbits : p.bits = c.tree.bits)
    (ht : p.refs.map CCell.tree = c.refs.map CCell.tree) :
    ∃ hs, p.finalize H = .ok (.mk p.desc p.bitLen p.data p.refs hs) ∧ (CCell.mk p.desc p.bitLen p.data p.refs hs).tree = c.tree := by
  have hf := hb.facts
  have hspec := CellParts.finalize_spec (H := H) hp (fun r h => (hr r h).facts.agrees)
  dsimp only at hspec
  obtain ⟨s1, _, _⟩ := hspec
  have htree : c.tree = .mk c.desc.isExotic c.tree.bits (c.refs.map CCell.tree) := by
    cases c with
    | mk d n bs rs hs => show Cell.mk _ _ (CCell.treeList rs) = _; rw [CCell.treeList_eq]; rfl
  have hwf := hf.wf
  have hmask := hf.agrees.mask
  rw [htree] at hwf hmask
  unfold Cell.WF at hwf
  obtain ⟨⟨ty, t1, t2, t3⟩, _⟩ := hwf
  obtain ⟨m, hmm⟩ := Option.ne_none_iff_exists'.mp t2
  have hi : (Cell.info H (.mk c.desc.isExotic c.tree.bits (c.refs.map CCell.tree))).mask = m := nodeInfo_mask t1 hmm
  rw [hi] at hmask t3
  have hn : CellParts.NodeOk p (Cell.infoList H (CCell.treeList p.refs)) ty := by
    rw [CCell.treeList_eq, ht]
    refine ⟨by rw [he, hbits]; exact t1, by rw [hbits, hm, hmask]; exact hmm, ?_⟩
    rw [hm, hmask]; exact t3
  obtain ⟨hs, e1, _, _⟩ := s1 ty hn
  refine ⟨hs, e1, ?_⟩
  rw [htree]
  show Cell.mk p.desc.isExotic p.bits (CCell.treeList p.refs) = _
  rw [he, hbits, CCell.treeList_eq, ht]

theorem readRefs_bytes {w : Writer} {cells : List CCell} {refSize : Nat} (hn : w.count ≤ 256 ^ refSize) : ∀ (rs : List CCell),
    (∀ r ∈ rs, ∃ (j : Nat) (x : CCell), w.find r.reprHash = some j ∧ j < w.count ∧ cells[j]? = some x ∧ x.tree = r.tree) →
    ∃ xs, readRefs cells w.count refSize rs.length (refBytes w refSize rs) = .ok xs ∧ xs.map CCell.tree = rs.map CCell.tree ∧ ∀ x ∈ xs, x ∈ cells
  | [], _ => ⟨[], rfl, rfl, by simp⟩
  | r :: rs, h => by
    obtain ⟨j, x, e1, e2, e3, e4⟩ := h r List.mem_cons_self
    obtain ⟨xs, f1, f2, f3⟩ := readRefs_bytes hn rs fun y hy => h y (List.mem_cons_of_mem _ hy)
    refine ⟨x :: xs, ?_, by simp [e4, f2], ?_⟩
    · have : refBytes w refSize (r :: rs) = beBytes refSize (w.count - j - 1) ++ refBytes w refSize rs := by
        unfold refBytes
        rw [List.flatMap_cons, e1]
      rw [this, List.length_cons, readRefs, nextNat_beBytes _ (by omega)]
      simp only [bok]
      rw [ensure_ok (by simp only [decide_eq_true_eq]; omega)]
      simp only [bok]
      rw [ensure_ok (by simp only [decide_eq_true_eq]; omega)]
      simp only [bok]
      rw [show w.count - (w.count - j - 1) - 1 = j by omega, e3]
      simp only [f1, bok]
    · intro y hy
      rcases List.mem_cons.mp hy with rfl | hy
      · exact List.mem_of_getElem? e3
      · exact f3 y hy

namespace Ready
variable {H : Hasher} {w : Writer} (h : Ready H w)
include h

theorem makeCell_same {i : Nat} {c : CCell} (hc : w.cells[i]? = some c) {done : List CCell} (hl : done.length = i) (hb : ∀ x ∈ done, Built H x)
    (ht : done.map CCell.tree = (w.cells.take i).map CCell.tree) :
    ∃ c', makeCell H (w.cellBytes w.stats.refSize c) done w.count w.stats.refSize = .ok c' ∧ Built H c' ∧ c'.tree = c.tree ∧ c'.desc = w.descOf c := by
  have hmem := List.mem_of_getElem? hc
  have hbc := h.built c hmem
  have fc := hbc.facts
  have hs := h.shape hmem w.stats.refSize
  obtain ⟨f1, f2, f3, f4, f5⟩ := descOf_facts w c
  have htag : bytesToBits c.data = tagged ((bytesToBits c.data).take c.bitLen) := by
    have : c.tree.bits = (bytesToBits c.data).take c.bitLen := by cases c; rfl
    rw [← this]; exact fc.tagged
  have hbl := (decodeBitLen_unique hs.len fc.bitLen (by rw [f4]; exact fc.d2) fc.data htag).1
  have hrefs : ∀ r ∈ c.refs, ∃ (j : Nat) (x : CCell), w.find r.reprHash = some j ∧ j < w.count ∧ done[j]? = some x ∧ x.tree = r.tree := by
    intro r hr
    obtain ⟨j, j1, j2⟩ := h.inv.closed hc r hr
    obtain ⟨y, y1, y2⟩ := h.inv.idx j2
    have hi : i < w.count := (List.getElem?_eq_some_iff.mp hc).1
    have ht' := congrArg (fun l => l[j]?) ht
    simp only [List.getElem?_map, List.getElem?_take, if_pos j1, y1, Option.map_some] at ht'
    obtain ⟨x, hx⟩ : ∃ x, done[j]? = some x := ⟨_, List.getElem?_eq_getElem (by omega)⟩
    rw [hx] at ht'
    injection ht' with ht'
    exact ⟨j, x, j2, by omega, hx, by rw [ht']; exact (h.inj c hmem r hr y (List.mem_of_getElem? y1) y2.symm).symm⟩
  obtain ⟨xs, x1, x2, x3⟩ := readRefs_bytes (w := w) (cells := done) (refSize := w.stats.refSize) (Nat.le_of_lt h.ref_size.2.2) c.refs hrefs
  have hxl : xs.length = c.refs.length := by
    have := congrArg List.length x2
    simpa using this
  have hpok : (CellParts.mk c.bitLen (w.descOf c) (orChildren xs) xs c.data).Ok :=
    ⟨by rw [f1, fc.refs]; exact hxl.symm, by show xs.length ≤ 4; rw [hxl]; exact fc.refs_le, rfl, fc.bitLen, by show (w.descOf c).d2 = _; rw [f4]; exact fc.d2, fc.data, htag⟩
  obtain ⟨hs', e1, e2⟩ := remake hbc hpok (fun r hr => hb r (x3 r hr)) f2 f3 (by cases c; rfl) x2
  refine ⟨_, ?_, .mk hpok (fun r hr => hb r (x3 r hr)) e1, e2, rfl⟩
  unfold makeCell
  rw [partsOf_shape hs, hbl, f1, fc.refs, x1]
  simp only [bok]
  rw [e1]

theorem finalizeGo_same : ∀ (l : List CCell) (pre done : List CCell), w.cells = pre ++ l → (∀ x ∈ done, Built H x) → done.map CCell.tree = pre.map CCell.tree →
    done.map CCell.desc = pre.map w.descOf →
    ∃ out, finalizeGo H w.count w.stats.refSize (l.map (w.cellBytes w.stats.refSize)) done = .ok out ∧ (∀ x ∈ out, Built H x) ∧
      out.map CCell.tree = w.cells.map CCell.tree ∧ out.map CCell.desc = w.cells.map w.descOf
  | [], pre, done, hw, hb, ht, hd => ⟨done, rfl, hb, by rw [hw, ht]; simp, by rw [hd]; simp [hw]⟩
  | c :: l, pre, done, hw, hb, ht, hd => by
    have hl : done.length = pre.length := by
      have := congrArg List.length ht
      simpa using this
    obtain ⟨c', m1, m2, m3, m4⟩ := h.makeCell_same (i := pre.length) (c := c) (by rw [hw]; simp) hl hb (by rw [hw]; simpa using ht)
    obtain ⟨out, o1, o2, o3, o4⟩ := finalizeGo_same l (pre ++ [c]) (done ++ [c']) (by rw [hw]; simp)
      (fun x hx => by
        rcases List.mem_append.mp hx with hx | hx
        · exact hb x hx
        · rw [List.mem_singleton.mp hx]; exact m2)
      (by simp [ht, m3]) (by simp [hd, m4])
    refine ⟨out, ?_, o2, o3, o4⟩
    rw [List.map_cons, finalizeGo, m1]
    exact o1

/-- The reader gets the cells back in the order of the writer. -/
theorem finalize_same : ∃ out, Header.finalize H ⟨w.stats.refSize, w.cells.reverse.map (w.cellBytes w.stats.refSize), w.roots.map fun r => w.count - r - 1⟩ = .ok out ∧
    (∀ x ∈ out, Built H x) ∧ out.map CCell.tree = w.cells.map CCell.tree ∧ out.map CCell.desc = w.cells.map w.descOf := by
  obtain ⟨out, o1, o2⟩ := h.finalizeGo_same w.cells [] [] rfl (by simp) rfl rfl
  refine ⟨out, ?_, o2⟩
  unfold Header.finalize
  dsimp only
  rw [List.length_map, List.length_reverse, List.map_reverse, List.reverse_reverse]
  exact o1

end Ready

/-! ### The roots -/

theorem getAll_roots {cells out : List CCell} (ht : out.map CCell.tree = cells.map CCell.tree) : ∀ (rs : List Nat), (∀ r ∈ rs, r < cells.length) →
    ∃ cs, getAll out (rs.map fun r => cells.length - r - 1) = .ok cs ∧ (∀ c ∈ cs, c ∈ out) ∧
      cs.map (fun c => some c.tree) = rs.map (fun r => cells[r]?.map CCell.tree)
  | [], _ => ⟨[], rfl, by simp, rfl⟩
  | r :: rs, h => by
    obtain ⟨cs, c1, c2, c3⟩ := getAll_roots ht rs fun x hx => h x (List.mem_cons_of_mem _ hx)
    have hr := h r List.mem_cons_self
    have hl : out.length = cells.length := by
      have := congrArg List.length ht
      simpa using this
    obtain ⟨x, hx⟩ : ∃ x, out[r]? = some x := ⟨_, List.getElem?_eq_getElem (by omega)⟩
    have hxt : some x.tree = cells[r]?.map CCell.tree := by
      have := congrArg (fun l => l[r]?) ht
      simp only [List.getElem?_map, hx, Option.map_some] at this
      exact this
    refine ⟨x :: cs, ?_, ?_, by simp [c3, hxt]⟩
    · rw [List.map_cons, getAll]
      unfold getCell
      rw [if_pos (by omega), show out.length - (cells.length - r - 1) - 1 = r by omega, hx]
      simp only [bok]
      rw [c1]
      rfl
    · intro y hy
      rcases List.mem_cons.mp hy with rfl | hy
      · exact List.mem_of_getElem? hx
      · exact c2 y hy

/-- The states of a writer to which roots were added. -/
structure Rooted (H : Hasher) (S : CCell → Prop) (w : Writer) (rs : List CCell) : Prop where
  inv : w.Inv
  mem : ∀ c ∈ w.cells, ∃ r ∈ rs, CCell.Sub c r
  size : w.dataSize = (w.cells.map fun c => byteLenFull c.desc w.withoutHashes).sum
  roots : w.roots.length = rs.length
  root : ∀ (i r : Nat), w.roots[i]? = some r → ∃ c x, rs[i]? = some c ∧ w.cells[r]? = some x ∧ x.reprHash = c.reprHash
  refs_ge : w.count ≤ w.refCount + w.roots.length

theorem Rooted.new (H : Hasher) (S : CCell → Prop) (b : Bool) : Rooted H S (Writer.new.setWithoutHashes b) [] where
  inv := ⟨@fun h i e => (by cases e), @fun i c e => (by cases e), @fun i c e => (by cases e), rfl⟩
  mem := fun c hc => by cases hc
  size := rfl
  roots := rfl
  root := fun i r h => by cases h
  refs_ge := Nat.le_refl _

theorem Writer.addRoot_mk (w : Writer) (c : CCell) : w.addRoot c = ⟨(w.fill c).1.roots ++ [(w.fill c).2], (w.fill c).1.index, (w.fill c).1.cells,
  (w.fill c).1.dataSize, (w.fill c).1.refCount, (w.fill c).1.withoutHashes, (w.fill c).1.crc⟩ := rfl

/-- What `fill` does. -/
theorem fill_grown {H : Hasher} {S : CCell → Prop} (ha : Writer.Apart H S) {w : Writer} {c : CCell} (hw : w.Inv) (hc : S c) :
    Writer.Grown (fun a => CCell.Sub a c) w (w.fill c).1 ∧ (w.fill c).1.find c.reprHash = some (w.fill c).2 ∧
    (w.fill c).1.count + w.refCount ≤ (w.fill c).1.refCount + w.count + 1 := by
  rw [Writer.fill_eq]
  cases hf : w.find c.reprHash with
  | some i => exact ⟨Writer.Grown.refl hw, hf, by dsimp only; omega⟩
  | none =>
    obtain ⟨a, b, _, d⟩ := Writer.fillRec_spec ha c hw hc hf
    exact ⟨a, b, d⟩

theorem Rooted.add {H : Hasher} {S : CCell → Prop} (ha : Writer.Apart H S) {w : Writer} {rs : List CCell} (h : Rooted H S w rs) {c : CCell} (hc : S c) :
    Rooted H S (w.addRoot c) (rs ++ [c]) ∧ (w.addRoot c).withoutHashes = w.withoutHashes ∧ (w.addRoot c).crc = w.crc := by
  obtain ⟨g, f, n⟩ := fill_grown ha h.inv hc
  obtain ⟨added, g1, g2, g3⟩ := g.cells
  have gi := g.inv
  have hroots : (w.addRoot c).roots = w.roots ++ [(w.fill c).2] := by
    show (w.fill c).1.roots ++ _ = _; rw [g.roots]
  refine ⟨⟨⟨gi.idx, gi.has, gi.closed, gi.refs⟩, ?_, ?_, ?_, ?_, ?_⟩, g.wh, g.crc⟩
  · intro x hx
    have hx : x ∈ w.cells ++ added := by rw [← g1]; exact hx
    rcases List.mem_append.mp hx with hx | hx
    · obtain ⟨r, hr, s⟩ := h.mem x hx
      exact ⟨r, List.mem_append_left _ hr, s⟩
    · exact ⟨c, by simp, g2 x hx⟩
  · show (w.fill c).1.dataSize = ((w.fill c).1.cells.map _).sum
    have hwh : (w.addRoot c).withoutHashes = w.withoutHashes := g.wh
    rw [g3, g1, List.map_append, List.sum_append, hwh, h.size]
  · rw [hroots]; simp [h.roots]
  · intro i r hi
    rw [hroots, List.getElem?_append] at hi
    split at hi
    · rename_i hlt
      obtain ⟨y, x, e1, e2, e3⟩ := h.root i r hi
      refine ⟨y, x, by rw [List.getElem?_append_left (by rw [← h.roots]; exact hlt)]; exact e1, ?_, e3⟩
      show (w.fill c).1.cells[r]? = some x
      rw [g1, List.getElem?_append_left (List.getElem?_eq_some_iff.mp e2).1]
      exact e2
    · rename_i hge
      obtain ⟨h0, h1⟩ := List.getElem?_eq_some_iff.mp hi
      simp only [List.length_singleton] at h0
      have hie : i = rs.length := by have := h.roots; omega
      have hre : r = (w.fill c).2 := by
        rw [← h1]; simp
      obtain ⟨x, x1, x2⟩ := gi.idx f
      refine ⟨c, x, by rw [hie]; simp, by rw [hre]; exact x1, x2⟩
  · have := h.refs_ge
    rw [hroots, List.length_append]
    show (w.fill c).1.count ≤ (w.fill c).1.refCount + _
    simp only [List.length_singleton]
    omega

theorem Rooted.addAll {H : Hasher} {S : CCell → Prop} (ha : Writer.Apart H S) : ∀ (cs : List CCell) {w : Writer} {rs : List CCell}, Rooted H S w rs →
    (∀ c ∈ cs, S c) → Rooted H S (cs.foldl Writer.addRoot w) (rs ++ cs) ∧ (cs.foldl Writer.addRoot w).withoutHashes = w.withoutHashes ∧
      (cs.foldl Writer.addRoot w).crc = w.crc
  | [], w, rs, h, _ => by rw [List.append_nil]; exact ⟨h, rfl, rfl⟩
  | c :: cs, w, rs, h, hs => by
    obtain ⟨a, b, d⟩ := h.add ha (hs c List.mem_cons_self)
    obtain ⟨a', b', d'⟩ := Rooted.addAll ha cs a fun x hx => hs x (List.mem_cons_of_mem _ hx)
    rw [List.append_assoc] at a'
    exact ⟨a', b'.trans b, d'.trans d⟩

/-- The subcells of a list of roots. -/
def Below (rs : List CCell) (c : CCell) : Prop := ∃ r ∈ rs, CCell.Sub c r

/-- Two roots contain different cells with the same hash. -/
def Clash (H : Hasher) (rs : List CCell) : Prop := ∃ a ∈ rs, ∃ b ∈ rs, Collision H a.tree b.tree

theorem Cell_sub_trans {a b c : Cell} (h : Cell.Sub a b) (h' : Cell.Sub b c) : Cell.Sub a c := by
  induction h' with
  | refl => exact h
  | child hr s ih => exact .child hr ih

theorem CCell_sub_last {a r c : CCell} (s : CCell.Sub c r) (h : a ∈ c.refs) : CCell.Sub a r := CCell.Sub.trans (.child h (.refl _)) s

theorem below_apart {H : Hasher} {rs : List CCell} (hb : ∀ r ∈ rs, Built H r) (hc : ¬ Clash H rs) : Writer.Apart H (Below rs) where
  built := fun ⟨r, hr, s⟩ => (hb r hr).sub s
  child := fun ⟨r, hr, s⟩ h => ⟨r, hr, CCell_sub_last s h⟩
  inj := by
    intro a b ⟨r, hr, s⟩ ⟨r', hr', s'⟩ h
    rcases C12_cells ((hb r hr).sub s) ((hb r' hr').sub s') h with e | ⟨x, y, i, j, hx, hy, hne⟩
    · exact e
    · exact absurd ⟨r, hr, r', hr', x, y, i, j, Cell_sub_trans hx s.tree, Cell_sub_trans hy s'.tree, hne⟩ hc

/-- The writer with options and roots. -/
def writerOf (withoutHashes crc : Bool) (rs : List CCell) : Writer := (rs.foldl Writer.addRoot (Writer.new.setWithoutHashes withoutHashes)).withCrc crc

theorem writerOf_rooted {H : Hasher} {rs : List CCell} (hb : ∀ r ∈ rs, Built H r) (hc : ¬ Clash H rs) (wh crc : Bool) :
    Rooted H (Below rs) (writerOf wh crc rs) rs ∧ (writerOf wh crc rs).withoutHashes = wh ∧ (writerOf wh crc rs).crc = crc := by
  obtain ⟨a, b, c⟩ := Rooted.addAll (below_apart hb hc) rs (Rooted.new H (Below rs) wh) fun c h => ⟨c, h, .refl _⟩
  obtain ⟨i1, i2, i3, i4, i5, i6⟩ := a
  exact ⟨⟨⟨i1.idx, i1.has, i1.closed, i1.refs⟩, i2, i3, i4, i5, i6⟩, b, rfl⟩

theorem Rooted.filled {H : Hasher} {rs : List CCell} {w : Writer} (h : Rooted H (Below rs) w rs) (ha : Writer.Apart H (Below rs))
    (hn : ∀ c, Below rs c → Normal c) : Filled H w where
  inv := h.inv
  built := fun c hc => ha.built (h.mem c hc)
  normal := fun c hc => hn c (h.mem c hc)
  inj := fun c hc r hr x hx e => ha.inj (ha.child (h.mem c hc) hr) (h.mem x hx) e
  size := h.size

theorem Rooted.ready {H : Hasher} {rs : List CCell} {w : Writer} (h : Rooted H (Below rs) w rs) (ha : Writer.Apart H (Below rs))
    (hn : ∀ c, Below rs c → Normal c) (hne : rs ≠ []) (hlt : w.count < 2 ^ 32) (hle : rs.length ≤ w.count) : Ready H w where
  toFilled := h.filled ha hn
  count_pos := by
    have : 0 < rs.length := List.length_pos_iff.mpr hne
    omega
  count_lt := hlt
  root_lt := by
    intro r hr
    obtain ⟨i, hi⟩ := List.mem_iff_getElem?.mp hr
    obtain ⟨_, x, _, hx, _⟩ := h.root i r hi
    exact (List.getElem?_eq_some_iff.mp hx).1
  root_pos := by
    intro e
    have := h.roots
    rw [e] at this
    exact hne (List.eq_nil_of_length_eq_zero this.symm)
  root_le := by rw [h.roots]; exact hle
  refs_ge := h.refs_ge

theorem Rooted.root_trees {H : Hasher} {rs : List CCell} {w : Writer} (h : Rooted H (Below rs) w rs) (ha : Writer.Apart H (Below rs)) :
    w.roots.map (fun r => w.cells[r]?.map CCell.tree) = rs.map fun c => some c.tree := by
  apply List.ext_getElem?
  intro i
  simp only [List.getElem?_map]
  cases hi : w.roots[i]? with
  | none =>
    have : rs.length ≤ i := by
      rw [← h.roots]; exact List.getElem?_eq_none_iff.mp hi
    rw [List.getElem?_eq_none this]; rfl
  | some r =>
    obtain ⟨c, x, e1, e2, e3⟩ := h.root i r hi
    rw [e1]
    simp only [Option.map_some, e2]
    rw [ha.inj (h.mem x (List.mem_of_getElem? e2)) ⟨c, List.mem_of_getElem? e1, .refl _⟩ e3]

end Boc
end Verif
