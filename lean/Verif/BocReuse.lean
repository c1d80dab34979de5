import Verif.BocProps
/-
Bags of cells: writers that are used again (`boc/ser.rs`), targets that are not empty, and streams that fail.
-/
set_option linter.unusedVariables false
namespace Verif
namespace Boc

/-! ### The writer with its own counter -/

/-- `boc/ser.rs:44-53` `BocHeader`: the fields of `Writer` and the field `cell_count`, which `Writer` derives from the list of cells. -/
structure Head where
  w : Writer
  cellCount : Nat

namespace Head

/-- `boc/ser.rs:55-69` `default`; `84-95` `with_capacity` differs in the reserved memory only. -/
def new : Head := ⟨Writer.new, 0⟩

/-- `boc/ser.rs:427-433` (the same statements in `451-457`). -/
def push (h : Head) (c : CCell) : Head :=
  ⟨{ h.w with
    index := (c.reprHash, h.cellCount) :: h.w.index, cells := h.w.cells ++ [c]
    dataSize := h.w.dataSize + byteLenFull c.desc h.w.withoutHashes, refCount := h.w.refCount + c.desc.referenceCount }, h.cellCount + 1⟩

mutual
/-- `boc/ser.rs:419-434` `fill_recursive`. -/
def fillRec (h : Head) : CCell → Head
  | .mk d n bs rs hs => (h.fillList rs).push (.mk d n bs rs hs)
/-- The loop `boc/ser.rs:420-424`. -/
def fillList (h : Head) : List CCell → Head
  | [] => h
  | c :: cs => Head.fillList (if (h.w.find c.reprHash).isSome then h else h.fillRec c) cs
end

/-- `boc/ser.rs:436-462` `fill_deep`: the loop over the stack, as in `Writer.deepGo`. -/
def deepGo : Nat → List (CCell × List CCell) → Head → Option Head
  | _, [], h => some h
  | 0, _ :: _, _ => none
  | fuel + 1, (c, []) :: stack, h => deepGo fuel stack (h.push c)
  | fuel + 1, (c, r :: rs) :: stack, h =>
    if (h.w.find r.reprHash).isSome then deepGo fuel ((c, rs) :: stack) h
    else deepGo fuel ((r, r.refs) :: (c, rs) :: stack) h

/-- `boc/ser.rs:436-462` `fill_deep`. -/
def fillDeep (h : Head) (root : CCell) : Head := (deepGo root.steps [(root, root.refs)] h).getD h

/-- `boc/ser.rs:402-417` `fill`: the index of the root is `cell_count - 1` unless it is known. -/
def fill (h : Head) (root : CCell) : Head × Nat :=
  match h.w.find root.reprHash with
  | some i => (h, i)
  | none =>
    let h' := if root.reprDepth ≤ 128 then h.fillRec root else h.fillDeep root
    (h', h'.cellCount - 1)

/-- `boc/ser.rs:175-178` `add_root`. -/
def addRoot (h : Head) (root : CCell) : Head :=
  let (h', i) := h.fill root
  ⟨{ h'.w with roots := h'.w.roots ++ [i] }, h'.cellCount⟩

/-- `boc/ser.rs:180-185` `with_crc`. -/
def withCrc (h : Head) (b : Bool) : Head := ⟨{ h.w with crc := b }, h.cellCount⟩

/-- `boc/ser.rs:187-194` `without_hashes`. -/
def setWithoutHashes (h : Head) (b : Bool) : Head := ⟨{ h.w with withoutHashes := b }, h.cellCount⟩

/-- `boc/ser.rs:165-172` `clear`: all but the two options. -/
def clear (h : Head) : Head := ⟨{ h.w with roots := [], index := [], cells := [], dataSize := 0, refCount := 0 }, 0⟩

/-- `boc/ser.rs:293-327` `compute_stats`. -/
def stats (h : Head) : Stats :=
  let refSize := bytesToFit h.cellCount
  let total := h.w.dataSize + h.cellCount * 2 + refSize * h.w.refCount
  let offsetSize := bytesToFit total
  ⟨offsetSize, refSize, total, 4 + 2 + refSize * (3 + h.w.roots.length) + offsetSize + total + (if h.w.crc then 4 else 0)⟩

/-- `boc/ser.rs:329-360` `encode_header`: what is appended to the target. -/
def header (h : Head) : List Byte :=
  let s := h.stats
  [0xb5, 0xee, 0x9c, 0x72] ++ [BitVec.ofNat 8 s.refSize ||| (if h.w.crc then 0x40 else 0), BitVec.ofNat 8 s.offsetSize] ++
    beBytes s.refSize h.cellCount ++ beBytes s.refSize h.w.roots.length ++ beBytes s.refSize 0 ++ beBytes s.offsetSize s.totalCellsSize ++
    h.w.roots.flatMap fun r => beBytes s.refSize (h.cellCount - r - 1)

/-- `boc/ser.rs:366-388`: one cell. -/
def cellBytes (h : Head) (refSize : Nat) (c : CCell) : List Byte :=
  [(h.w.descOf c).d1, (h.w.descOf c).d2] ++ hashBytes (h.w.descOf c) c ++ c.data ++
    c.refs.flatMap fun r => match h.w.find r.reprHash with
      | some i => beBytes refSize (h.cellCount - i - 1)
      | none => []

/-- `boc/ser.rs:362-389` `encode_cells_chunk`: what is appended. -/
def cellsBytes (h : Head) (refSize : Nat) (chunk : List CCell) : List Byte := chunk.reverse.flatMap (h.cellBytes refSize)

/-- `boc/ser.rs:196-207` `encode` with `391-400` `encode_crc`, into any target: the checksum is that of the bytes behind the old end of the target. -/
def encode (h : Head) (target : List Byte) : List Byte :=
  let before := target.length
  let target := target ++ h.header
  let target := target ++ h.cellsBytes h.stats.refSize h.w.cells
  if h.w.crc then target ++ leBytes (crc32c (target.drop before)) else target

end Head

/-- `boc/ser.rs:7-11` `BocHeaderCache`, without the capacities. -/
structure Cache where
  index : List (Hash × Nat)
  cells : List CCell

/-- `boc/ser.rs:13-21` `default`, `25-30` `with_capacity`. -/
def Cache.empty : Cache := ⟨[], []⟩

/-- `boc/ser.rs:142-162` `into_cache`. -/
def Head.intoCache (h : Head) : Cache :=
  let h' : Head := ⟨{ h.w with index := [], cells := [] }, h.cellCount⟩
  ⟨h'.w.index, h'.w.cells⟩

/-- `boc/ser.rs:112-140` `with_root_and_cache`; the two assertions at its beginning exist in debug builds only and are not modelled. -/
def Head.withRootAndCache (root : CCell) (cache : Cache) : Head :=
  Head.addRoot ⟨⟨[], cache.index, cache.cells, 0, 0, false, false⟩, 0⟩ root

/-! ### Histories -/

/-- What the owner of a writer does. -/
inductive Act where
  | root (c : CCell)
  | crc (b : Bool)
  | noHashes (b : Bool)
  | clear
  /-- The writer is turned into a cache, and a new one with a root is made with it. -/
  | recycle (c : CCell)
  /-- The bag is appended to the target. -/
  | emit

/-- One step: the writer and the target. -/
def Act.run (s : Head × List Byte) : Act → Head × List Byte
  | .root c => (s.1.addRoot c, s.2)
  | .crc b => (s.1.withCrc b, s.2)
  | .noHashes b => (s.1.setWithoutHashes b, s.2)
  | .clear => (s.1.clear, s.2)
  | .recycle c => (Head.withRootAndCache c s.1.intoCache, s.2)
  | .emit => (s.1, s.1.encode s.2)

/-- `boc/mod.rs:148-170` `Boc::encode_with_cache`: the bytes and the cache for the next call. -/
def encodeWithCache (c : CCell) (cache : Cache) : List Byte × Cache :=
  let h := Head.withRootAndCache c cache
  (h.encode [], h.intoCache)

/-- A number of calls with the same cache. -/
def encodeAllWithCache : List CCell → Cache → List (List Byte)
  | [], _ => []
  | c :: cs, cache => (encodeWithCache c cache).1 :: encodeAllWithCache cs (encodeWithCache c cache).2

/-! ### Specification of histories -/

/-- What matters of a history: the options now, and the roots since the last `clear` or `recycle`, each with the option that was set when it was added. -/
structure Memo where
  roots : List (Bool × CCell)
  wh : Bool
  crc : Bool

def Memo.new : Memo := ⟨[], false, false⟩

def Memo.step (m : Memo) : Act → Memo
  | .root c => { m with roots := m.roots ++ [(m.wh, c)] }
  | .crc b => { m with crc := b }
  | .noHashes b => { m with wh := b }
  | .clear => { m with roots := [] }
  | .recycle c => ⟨[(false, c)], false, false⟩
  | .emit => m

/-- A new writer with these roots and options. -/
def Memo.fresh (m : Memo) : Writer :=
  ((m.roots.foldl (fun w p => (w.setWithoutHashes p.1).addRoot p.2) Writer.new).setWithoutHashes m.wh).withCrc m.crc

/-- The bags that a history writes: each one is that of a new writer. -/
def bags : Memo → List Act → List (List Byte)
  | _, [] => []
  | m, .emit :: as => m.fresh.encode :: bags m as
  | m, a :: as => bags (m.step a) as

/-! ### Streams -/

/-- The answer of a stream to one call of `write` (`std::io::Write`). -/
inductive Resp where
  /-- It took at most `n` bytes. -/
  | took (n : Nat)
  /-- `ErrorKind::Interrupted`. -/
  | interrupted
  /-- Another error; `n` bytes have reached the medium nevertheless. -/
  | failed (n : Nat)

/-- How a call ends. `stopped`: the process has ended in the middle of it. -/
inductive Outcome where
  | ok
  | failed
  | stopped
deriving DecidableEq

/-- `std::io::Write::write_all`: a call that takes nothing is an error, interrupted calls are repeated. The list has the answers of the stream; at its end the process stops. -/
def writeAll : List Resp → List Byte → List Byte → Outcome × List Resp × List Byte
  | rs, [], out => (.ok, rs, out)
  | [], _ :: _, out => (.stopped, [], out)
  | .interrupted :: rs, b :: bs, out => writeAll rs (b :: bs) out
  | .failed n :: rs, b :: bs, out => (.failed, rs, out ++ (b :: bs).take n)
  | .took n :: rs, b :: bs, out => if n = 0 then (.failed, rs, out) else writeAll rs ((b :: bs).drop n) (out ++ (b :: bs).take n)

/-- `boc/ser.rs:228-241`: the chunks and the checksum of those that have been written. -/
def sendAll : Option (BitVec 32) → List (List Byte) → List Resp → List Byte → Outcome × Option (BitVec 32) × List Resp × List Byte
  | crc, [], rs, out => (.ok, crc, rs, out)
  | crc, c :: cs, rs, out => match writeAll rs c out with
    | (.ok, rs, out) => sendAll (crc.map (crcAppend · c)) cs rs out
    | (o, rs, out) => (o, crc, rs, out)

/-- `boc/ser.rs:209-250` `encode_to_writer` into a stream: how the call ends and what has reached the medium. -/
def Writer.encodeToStream (w : Writer) (chunkSize : Nat) (answers : List Resp) : Outcome × List Byte :=
  match sendAll (if w.crc then some 0 else none) (w.header :: (rchunks chunkSize w.cells.length w.cells).map (w.cellsBytes w.stats.refSize)) answers [] with
  | (.ok, some crc, rs, out) => ((writeAll rs (leBytes crc) out).1, (writeAll rs (leBytes crc) out).2.2)
  | (o, _, _, out) => (o, out)

/-! ### The counter -/

/-- The writer whose counter is right. -/
def Head.of (w : Writer) : Head := ⟨w, w.count⟩

theorem Head.push_of (w : Writer) (c : CCell) : (Head.of w).push c = Head.of (w.push c) := by
  unfold Head.of Head.push Writer.push Writer.count
  simp

mutual
theorem Head.fillRec_of : ∀ (c : CCell) (w : Writer), (Head.of w).fillRec c = Head.of (w.fillRec c)
  | .mk d n bs rs hs, w => by
    rw [Head.fillRec, Writer.fillRec, Head.fillList_of rs w, Head.push_of]
theorem Head.fillList_of : ∀ (cs : List CCell) (w : Writer), (Head.of w).fillList cs = Head.of (w.fillList cs)
  | [], w => by rw [Head.fillList, Writer.fillList]
  | c :: cs, w => by
    rw [Head.fillList, Writer.fillList]
    have e : (Head.of w).w = w := rfl
    rw [e]
    by_cases h : (w.find c.reprHash).isSome
    · rw [if_pos h, if_pos h]
      exact Head.fillList_of cs w
    · rw [if_neg h, if_neg h, Head.fillRec_of c w]
      exact Head.fillList_of cs _
end

theorem Head.deepGo_of : ∀ (fuel : Nat) (st : List (CCell × List CCell)) (w : Writer), Head.deepGo fuel st (Head.of w) = (Writer.deepGo fuel st w).map Head.of
  | fuel, [], w => by cases fuel <;> simp [Head.deepGo, Writer.deepGo]
  | 0, _ :: _, w => by simp [Head.deepGo, Writer.deepGo]
  | fuel + 1, (c, []) :: stack, w => by
    rw [Head.deepGo, Writer.deepGo, Head.push_of, Head.deepGo_of fuel]
  | fuel + 1, (c, r :: rs) :: stack, w => by
    rw [Head.deepGo, Writer.deepGo]
    have e : (Head.of w).w = w := rfl
    rw [e]
    by_cases h : (w.find r.reprHash).isSome
    · rw [if_pos h, if_pos h, Head.deepGo_of fuel]
    · rw [if_neg h, if_neg h, Head.deepGo_of fuel]

theorem Head.fill_of (w : Writer) (c : CCell) : (Head.of w).fill c = (Head.of (w.fill c).1, (w.fill c).2) := by
  unfold Head.fill Writer.fill
  have e : (Head.of w).w = w := rfl
  rw [e]
  cases w.find c.reprHash with
  | some i => rfl
  | none =>
    have hd : (Head.of w).fillDeep c = Head.of (w.fillDeep c) := by
      unfold Head.fillDeep Writer.fillDeep
      rw [Head.deepGo_of]
      cases Writer.deepGo c.steps [(c, c.refs)] w <;> rfl
    dsimp only
    rw [Head.fillRec_of, hd]
    by_cases h : c.reprDepth ≤ 128
    · simp only [if_pos h]; rfl
    · simp only [if_neg h]; rfl

theorem Head.addRoot_of (w : Writer) (c : CCell) : (Head.of w).addRoot c = Head.of (w.addRoot c) := by
  unfold Head.addRoot Writer.addRoot
  rw [Head.fill_of]
  rfl

theorem Head.encode_of (w : Writer) (target : List Byte) : (Head.of w).encode target = target ++ w.encode := by
  unfold Head.encode
  have e1 : (Head.of w).header = w.header := rfl
  have e2 : (Head.of w).stats = w.stats := rfl
  have e3 : ∀ n l, (Head.of w).cellsBytes n l = w.cellsBytes n l := fun _ _ => rfl
  have e4 : (Head.of w).w = w := rfl
  unfold Writer.encode
  dsimp only
  rw [e1, e2, e3, e4]
  by_cases h : w.crc = true
  · simp only [if_pos h, List.append_assoc, List.drop_left]
  · simp only [if_neg h, List.append_nil, List.append_assoc]

/-! ### The option for the checksum does not matter while cells are added -/

mutual
theorem fillRec_crc (b : Bool) : ∀ (c : CCell) (w : Writer), (w.withCrc b).fillRec c = (w.fillRec c).withCrc b ∧ (w.fillRec c).withoutHashes = w.withoutHashes
  | .mk d n bs rs hs, w => by
    rw [Writer.fillRec, Writer.fillRec, (fillList_crc b rs w).1]
    exact ⟨rfl, (fillList_crc b rs w).2⟩
theorem fillList_crc (b : Bool) : ∀ (cs : List CCell) (w : Writer), (w.withCrc b).fillList cs = (w.fillList cs).withCrc b ∧ (w.fillList cs).withoutHashes = w.withoutHashes
  | [], w => by rw [Writer.fillList, Writer.fillList]; exact ⟨rfl, rfl⟩
  | c :: cs, w => by
    rw [Writer.fillList, Writer.fillList]
    have e : (w.withCrc b).find c.reprHash = w.find c.reprHash := rfl
    rw [e]
    by_cases h : (w.find c.reprHash).isSome
    · rw [if_pos h, if_pos h]
      exact fillList_crc b cs w
    · rw [if_neg h, if_neg h, (fillRec_crc b c w).1]
      have := fillList_crc b cs (w.fillRec c)
      exact ⟨this.1, this.2.trans (fillRec_crc b c w).2⟩
end

theorem addRoot_crc (b : Bool) (w : Writer) (c : CCell) : (w.withCrc b).addRoot c = (w.addRoot c).withCrc b ∧ (w.addRoot c).withoutHashes = w.withoutHashes := by
  unfold Writer.addRoot Writer.fill
  have e : (w.withCrc b).find c.reprHash = w.find c.reprHash := rfl
  rw [e]
  cases w.find c.reprHash with
  | some i => exact ⟨rfl, rfl⟩
  | none =>
    dsimp only
    rw [Writer.fillDeep_eq, Writer.fillDeep_eq, ite_self, ite_self, (fillRec_crc b c w).1]
    exact ⟨rfl, (fillRec_crc b c w).2⟩

theorem set_same (w : Writer) {b : Bool} (h : w.withoutHashes = b) : w.setWithoutHashes b = w := by
  unfold Writer.setWithoutHashes
  rw [← h]

theorem Memo.step_fresh (m : Memo) (a : Act) (target : List Byte) :
    Act.run (Head.of m.fresh, target) a = (Head.of (m.step a).fresh, match a with | .emit => target ++ m.fresh.encode | _ => target) := by
  cases a with
  | emit =>
    show (Head.of m.fresh, (Head.of m.fresh).encode target) = _
    rw [Head.encode_of]
    rfl
  | crc b => rfl
  | noHashes b => rfl
  | clear => rfl
  | recycle c =>
    show (Head.addRoot (Head.of Writer.new) c, target) = (Head.of ((((Writer.new.setWithoutHashes false).addRoot c).setWithoutHashes false).withCrc false), target)
    have e : Writer.new.setWithoutHashes false = Writer.new := rfl
    rw [Head.addRoot_of, e, set_same (b := false) _ (addRoot_crc false Writer.new c).2, ← (addRoot_crc false Writer.new c).1]
    rfl
  | root c =>
    show ((Head.of m.fresh).addRoot c, target) = _
    rw [Head.addRoot_of]
    unfold Memo.fresh Memo.step
    dsimp only
    rw [List.foldl_append]
    dsimp only [List.foldl_cons, List.foldl_nil]
    rw [(addRoot_crc m.crc _ c).1, set_same (b := m.wh) (Writer.addRoot (Writer.setWithoutHashes _ m.wh) c) (addRoot_crc true _ c).2]

theorem bags_cons (m : Memo) (a : Act) (as : List Act) : (bags m (a :: as)).flatten = (match a with | .emit => m.fresh.encode | _ => []) ++ (bags (m.step a) as).flatten := by
  cases a <;> simp [bags, Memo.step]

theorem runs_eq : ∀ (as : List Act) (m : Memo) (target : List Byte),
    as.foldl Act.run (Head.of m.fresh, target) = (Head.of (as.foldl Memo.step m).fresh, target ++ (bags m as).flatten)
  | [], m, target => by simp [bags]
  | a :: as, m, target => by
    rw [List.foldl_cons, Memo.step_fresh, runs_eq as, List.foldl_cons, bags_cons]
    cases a <;> simp

/-! ### Streams -/

theorem writeAll_spec : ∀ (rs : List Resp) (b out : List Byte), ∃ p q, p ++ q = b ∧ (writeAll rs b out).2.2 = out ++ p ∧ ((writeAll rs b out).1 = .ok → q = [])
  | rs, [], out => ⟨[], [], rfl, by cases rs <;> simp [writeAll], fun _ => rfl⟩
  | [], b :: bs, out => ⟨[], b :: bs, rfl, by simp [writeAll], fun h => by simp [writeAll] at h⟩
  | .interrupted :: rs, b :: bs, out => by rw [writeAll]; exact writeAll_spec rs (b :: bs) out
  | .failed n :: rs, b :: bs, out => ⟨(b :: bs).take n, (b :: bs).drop n, List.take_append_drop _ _, by simp [writeAll], fun h => by simp [writeAll] at h⟩
  | .took n :: rs, b :: bs, out => by
    rw [writeAll]
    by_cases h : n = 0
    · rw [if_pos h]; exact ⟨[], b :: bs, rfl, by simp, fun h => by simp at h⟩
    · rw [if_neg h]
      obtain ⟨p, q, h1, h2, h3⟩ := writeAll_spec rs ((b :: bs).drop n) (out ++ (b :: bs).take n)
      refine ⟨(b :: bs).take n ++ p, q, by rw [List.append_assoc, h1, List.take_append_drop], by rw [h2, List.append_assoc], h3⟩

theorem sendAll_spec : ∀ (cs : List (List Byte)) (crc : Option (BitVec 32)) (rs : List Resp) (out : List Byte),
    ∃ p q, p ++ q = cs.flatten ∧ (sendAll crc cs rs out).2.2.2 = out ++ p ∧
      ((sendAll crc cs rs out).1 = .ok → q = [] ∧ (sendAll crc cs rs out).2.1 = crc.map fun x => cs.foldl crcAppend x)
  | [], crc, rs, out => ⟨[], [], rfl, by simp [sendAll], fun _ => ⟨rfl, by cases crc <;> rfl⟩⟩
  | c :: cs, crc, rs, out => by
    obtain ⟨p, q, h1, h2, h3⟩ := writeAll_spec rs c out
    rw [sendAll]
    rcases hw : writeAll rs c out with ⟨o, rs', out'⟩
    rw [hw] at h2 h3
    dsimp only at h2 h3
    cases o with
    | ok =>
      obtain ⟨p', q', g1, g2, g3⟩ := sendAll_spec cs (crc.map (crcAppend · c)) rs' out'
      have hq := h3 rfl
      rw [hq, List.append_nil] at h1
      refine ⟨p ++ p', q', by rw [List.append_assoc, g1, h1, List.flatten_cons], by rw [g2, h2, List.append_assoc], fun ho => ?_⟩
      obtain ⟨g4, g5⟩ := g3 ho
      refine ⟨g4, g5.trans ?_⟩
      cases crc <;> rfl
    | failed => exact ⟨p, q ++ cs.flatten, by rw [← List.append_assoc, h1, List.flatten_cons], h2, fun h => nomatch h⟩
    | stopped => exact ⟨p, q ++ cs.flatten, by rw [← List.append_assoc, h1, List.flatten_cons], h2, fun h => nomatch h⟩

/-- A stream that makes progress. -/
def Resp.good : Resp → Bool
  | .took n => n != 0
  | .interrupted => true
  | .failed _ => false

/-- The number of calls that take something. -/
def takes : List Resp → Nat
  | [] => 0
  | .took _ :: rs => takes rs + 1
  | _ :: rs => takes rs

theorem writeAll_good : ∀ (rs : List Resp) (b out : List Byte), (∀ r ∈ rs, r.good = true) → b.length ≤ takes rs →
    (writeAll rs b out).1 = .ok ∧ (∀ r ∈ (writeAll rs b out).2.1, r.good = true) ∧ takes rs ≤ takes (writeAll rs b out).2.1 + b.length
  | rs, [], out, hg, _ => by cases rs <;> simp [writeAll] <;> simpa using hg
  | [], b :: bs, out, _, h => by simp [takes] at h
  | .interrupted :: rs, b :: bs, out, hg, h => by
    rw [writeAll]
    exact writeAll_good rs (b :: bs) out (fun r hr => hg r (List.mem_cons_of_mem _ hr)) h
  | .failed n :: rs, b :: bs, out, hg, _ => by have := hg _ List.mem_cons_self; cases this
  | .took n :: rs, b :: bs, out, hg, h => by
    have hn : n ≠ 0 := by simpa [Resp.good] using hg _ List.mem_cons_self
    rw [writeAll, if_neg hn]
    simp only [takes, List.length_cons] at h
    have hl : ((b :: bs).drop n).length ≤ bs.length := by rw [List.length_drop, List.length_cons]; omega
    obtain ⟨h1, h2, h3⟩ := writeAll_good rs ((b :: bs).drop n) (out ++ (b :: bs).take n) (fun r hr => hg r (List.mem_cons_of_mem _ hr)) (by omega)
    refine ⟨h1, h2, ?_⟩
    simp only [takes, List.length_cons]
    omega

theorem sendAll_good : ∀ (cs : List (List Byte)) (crc : Option (BitVec 32)) (rs : List Resp) (out : List Byte), (∀ r ∈ rs, r.good = true) → cs.flatten.length ≤ takes rs →
    (sendAll crc cs rs out).1 = .ok ∧ (∀ r ∈ (sendAll crc cs rs out).2.2.1, r.good = true) ∧ takes rs ≤ takes (sendAll crc cs rs out).2.2.1 + cs.flatten.length
  | [], crc, rs, out, hg, _ => by simp [sendAll]; exact hg
  | c :: cs, crc, rs, out, hg, h => by
    rw [List.flatten_cons, List.length_append] at h
    obtain ⟨h1, h2, h3⟩ := writeAll_good rs c out hg (by omega)
    rw [sendAll]
    rcases hw : writeAll rs c out with ⟨o, rs', out'⟩
    rw [hw] at h1 h2 h3
    dsimp only at h1 h2 h3
    subst h1
    dsimp only
    obtain ⟨g1, g2, g3⟩ := sendAll_good cs (crc.map (crcAppend · c)) rs' out' h2 (by omega)
    exact ⟨g1, g2, by rw [List.flatten_cons, List.length_append]; omega⟩

end Boc
end Verif
