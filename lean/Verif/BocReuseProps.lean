import Verif.BocReuse
/-
C97: writers of bags of cells that are used again, targets that are not empty, streams that fail at any point.
-/
set_option linter.unusedVariables false
namespace Verif
namespace Boc

/-- C97: whatever has been done with a writer before, each bag it appends is the one that a new writer with the roots since the last `clear` (or since it was made with
a recycled cache) and the same options makes; what was in the target before stays and does not change the checksum. -/
theorem C97_history (as : List Act) (target : List Byte) : (as.foldl Act.run (Head.new, target)).2 = target ++ (bags Memo.new as).flatten := by
  have e : Head.new = Head.of Memo.new.fresh := rfl
  rw [e, runs_eq]

/-- C97: after `clear`, a writer works like a new one with the same options: nothing of the cells before is left. -/
theorem C97_clear (as : List Act) (roots : List CCell) (target : List Byte) :
    let wh := (as.foldl Memo.step Memo.new).wh
    let crc := (as.foldl Memo.step Memo.new).crc
    (as ++ Act.clear :: roots.map Act.root ++ [Act.emit]).foldl Act.run (Head.new, target) =
      (Head.of (writerOf wh crc roots), (as.foldl Act.run (Head.new, target)).2 ++ (writerOf wh crc roots).encode) := by
  have e : Head.new = Head.of Memo.new.fresh := rfl
  have hm : ∀ (roots : List CCell) (m : Memo), (roots.map Act.root).foldl Memo.step m = ⟨m.roots ++ roots.map (fun c => (m.wh, c)), m.wh, m.crc⟩ := by
    intro roots
    induction roots with
    | nil => intro m; simp
    | cons c cs ih => intro m; simp [ih, Memo.step]
  have hb : ∀ (roots : List CCell) (m : Memo), bags m (roots.map Act.root ++ [.emit]) = [((roots.map Act.root).foldl Memo.step m).fresh.encode] := by
    intro roots
    induction roots with
    | nil => intro m; simp [bags]
    | cons c cs ih => intro m; simp [bags, ih]
  have hf : ∀ (roots : List CCell) (wh : Bool) (w : Writer), w.withoutHashes = wh → (roots.map (fun c => (wh, c))).foldl (fun w p => (w.setWithoutHashes p.1).addRoot p.2) w =
      roots.foldl Writer.addRoot w ∧ (roots.foldl Writer.addRoot w).withoutHashes = wh := by
    intro roots wh
    induction roots with
    | nil => intro w h; exact ⟨rfl, h⟩
    | cons c cs ih =>
      intro w h
      rw [List.map_cons, List.foldl_cons, List.foldl_cons]
      dsimp only
      rw [set_same w h]
      exact ih _ ((addRoot_crc true w c).2.trans h)
  dsimp only
  generalize hM : as.foldl Memo.step Memo.new = M
  have hw : (Memo.mk (roots.map (fun c => (M.wh, c))) M.wh M.crc).fresh = writerOf M.wh M.crc roots := by
    unfold Memo.fresh writerOf
    dsimp only
    have hs := hf roots M.wh (Writer.new.setWithoutHashes M.wh) rfl
    cases roots with
    | nil => rfl
    | cons c cs =>
      have e1 : (((c :: cs).map (fun c => (M.wh, c))).foldl (fun w p => (w.setWithoutHashes p.1).addRoot p.2) Writer.new) =
          (((c :: cs).map (fun c => (M.wh, c))).foldl (fun w p => (w.setWithoutHashes p.1).addRoot p.2) (Writer.new.setWithoutHashes M.wh)) := rfl
      rw [e1, hs.1, set_same (b := M.wh) _ hs.2]
  rw [List.append_assoc, List.foldl_append, e, runs_eq as Memo.new target, hM]
  rw [runs_eq]
  have h1 : (Act.clear :: roots.map Act.root ++ [Act.emit]).foldl Memo.step M = ⟨roots.map (fun c => (M.wh, c)), M.wh, M.crc⟩ := by
    rw [List.cons_append, List.foldl_cons, List.foldl_append, hm]
    rfl
  have h2 : bags M (Act.clear :: roots.map Act.root ++ [Act.emit]) = [(writerOf M.wh M.crc roots).encode] := by
    show bags (M.step .clear) (roots.map Act.root ++ [Act.emit]) = _
    rw [hb, hm]
    exact congrArg (fun w => [Writer.encode w]) hw
  rw [h1, h2, hw]
  simp

/-- C97: calls with a shared cache give what the calls without a cache give. -/
theorem C97_cache (cs : List CCell) : encodeAllWithCache cs Cache.empty = cs.map encode := by
  have one : ∀ c, encodeWithCache c Cache.empty = (encode c, Cache.empty) := by
    intro c
    unfold encodeWithCache
    have e : Head.withRootAndCache c Cache.empty = Head.of (Writer.withRoot c) := Head.addRoot_of Writer.new c
    dsimp only
    rw [e, Head.encode_of]
    rfl
  induction cs with
  | nil => rfl
  | cons c cs ih =>
    rw [encodeAllWithCache, one, List.map_cons]
    dsimp only
    rw [ih]

/-- C97: whatever a stream answers and wherever the process stops, what has reached the medium is a beginning of the bag; if the call succeeds, it is the bag. -/
theorem C97_stream (w : Writer) (k : Nat) (hk : 0 < k) (answers : List Resp) :
    (∃ missing, (w.encodeToStream k answers).2 ++ missing = w.encode) ∧ ((w.encodeToStream k answers).1 = .ok → (w.encodeToStream k answers).2 = w.encode) := by
  have he := C18_chunks w k hk
  unfold Writer.encodeToWriter at he
  dsimp only at he
  unfold Writer.encodeToStream
  generalize w.header :: (rchunks k w.cells.length w.cells).map (w.cellsBytes w.stats.refSize) = cs at he ⊢
  obtain ⟨p, q, h1, h2, h3⟩ := sendAll_spec cs (if w.crc then some 0 else none) answers []
  rw [List.nil_append] at h2
  have hpre : ∃ missing, p ++ missing = w.encode := ⟨q ++ (if w.crc then leBytes (cs.foldl crcAppend 0) else []), by rw [← List.append_assoc, h1, he]⟩
  rcases hs : sendAll (if w.crc then some 0 else none) cs answers [] with ⟨o, crc, rs, out⟩
  rw [hs] at h2 h3
  dsimp only at h2 h3
  subst h2
  cases o with
  | ok =>
    obtain ⟨h4, h5⟩ := h3 rfl
    rw [h4, List.append_nil] at h1
    cases hc : w.crc with
    | false =>
      rw [hc] at h5 he
      simp only [Bool.false_eq_true, if_false, Option.map_none] at h5
      subst h5
      rw [if_neg (by decide), List.append_nil, ← h1] at he
      exact ⟨⟨[], by rw [List.append_nil]; exact he⟩, fun _ => he⟩
    | true =>
      rw [hc] at h5 he
      simp only [if_true, Option.map_some] at h5
      subst h5
      rw [if_pos rfl, ← h1] at he
      dsimp only
      rw [h1] at he ⊢
      obtain ⟨p', q', g1, g2, g3⟩ := writeAll_spec rs (leBytes (cs.foldl crcAppend 0)) cs.flatten
      rw [g2]
      refine ⟨⟨q', by rw [List.append_assoc, g1]; exact he⟩, fun ho => ?_⟩
      rw [g3 ho, List.append_nil] at g1
      rw [g1]
      exact he
  | failed => exact ⟨by simpa using hpre, fun h => by simp at h⟩
  | stopped => exact ⟨by simpa using hpre, fun h => by simp at h⟩

/-- C97: a stream that takes something with every answer, and has enough answers, gets the bag. -/
theorem C97_stream_ends (w : Writer) (k : Nat) (hk : 0 < k) (answers : List Resp) (hg : ∀ r ∈ answers, r.good = true) (hl : w.encode.length ≤ takes answers) :
    (w.encodeToStream k answers).1 = .ok := by
  have he := C18_chunks w k hk
  unfold Writer.encodeToWriter at he
  dsimp only at he
  unfold Writer.encodeToStream
  generalize w.header :: (rchunks k w.cells.length w.cells).map (w.cellsBytes w.stats.refSize) = cs at he ⊢
  rw [← he, List.length_append] at hl
  obtain ⟨h1, h2, h3⟩ := sendAll_good cs (if w.crc then some 0 else none) answers [] hg (by omega)
  obtain ⟨_, _, _, _, h4⟩ := sendAll_spec cs (if w.crc then some 0 else none) answers []
  obtain ⟨_, h5⟩ := h4 h1
  rcases hs : sendAll (if w.crc then some 0 else none) cs answers [] with ⟨o, crc, rs, out⟩
  rw [hs] at h1 h2 h3 h5
  dsimp only at h1 h2 h3 h5
  subst h1
  cases hc : w.crc with
  | false =>
    rw [hc] at h5
    simp only [Bool.false_eq_true, if_false, Option.map_none] at h5
    subst h5
    rfl
  | true =>
    rw [hc] at h5 hl
    simp only [if_true, Option.map_some] at h5
    subst h5
    simp only [if_true] at hl
    have e4 : ∀ x, (leBytes x).length = 4 := fun _ => rfl
    rw [e4] at hl
    exact (writeAll_good rs _ out h2 (by rw [e4]; omega)).1

/-- C97: what a reader accepts of an interrupted write is the whole bag: of a bag that has reached the medium only in part nothing is read. -/
theorem C97_torn (H : Hasher) {rs : List CCell} (hb : ∀ r ∈ rs, Built H r) (hn : ∀ c, Below rs c → Normal c) (hne : rs ≠ []) (wh crc : Bool)
    (opts : Options) (h1 : opts.minRoots.getD 0 ≤ rs.length) (h2 : rs.length ≤ opts.maxRoots.getD 32) (hmax : AtMost rs (2 ^ 32 - 1))
    (hroots : AtLeast rs rs.length) (k : Nat) (hk : 0 < k) (answers : List Resp) :
    Clash H rs ∨ ∀ h, decodeHeader ((writerOf wh crc rs).encodeToStream k answers).2 opts = .ok h → ((writerOf wh crc rs).encodeToStream k answers).2 = (writerOf wh crc rs).encode := by
  rcases C15_bytes H hb hn hne wh crc opts h1 h2 hmax hroots with h | ⟨_, h⟩
  · exact .inl h
  right
  intro hd hok
  obtain ⟨missing, hm⟩ := (C97_stream (writerOf wh crc rs) k hk answers).1
  by_cases he : missing = []
  · rw [he, List.append_nil] at hm; exact hm
  · exact absurd hok (h _ missing hm he hd)

/-- C97: a cell that is read after an interrupted write is the one that was written. -/
theorem C97_torn_cell (H : Hasher) {c : CCell} (hb : Built H c) (hp : Plain c) (wh crc : Bool) (hmax : AtMost [c] (2 ^ 32 - 1)) (k : Nat) (hk : 0 < k) (answers : List Resp) :
    Collision H c.tree c.tree ∨ ∀ c', decode H ((writerOf wh crc [c]).encodeToStream k answers).2 = .ok c' → c' = c := by
  rcases C15_roundtrip H hb hp wh crc hmax with h | h
  · exact .inl h
  rcases C97_torn H (rs := [c]) (fun r hr => by rw [List.mem_singleton.mp hr]; exact hb) (below_plain (H := H) fun r hr => by rw [List.mem_singleton.mp hr]; exact ⟨hb, hp⟩) (by simp) wh crc ⟨some 1, some 1⟩ (by simp) (by simp) hmax
      (atLeast_one c) k hk answers with ⟨a, ha, b, hb', hcl⟩ | ht
  · rw [List.mem_singleton.mp ha, List.mem_singleton.mp hb'] at hcl
    exact .inl hcl
  right
  intro c' hc'
  cases hh : decodeHeader ((writerOf wh crc [c]).encodeToStream k answers).2 ⟨some 1, some 1⟩ with
  | error e =>
    unfold decode at hc'
    rw [hh] at hc'
    cases hc'
  | ok hd =>
    rw [ht hd hh, h] at hc'
    injection hc' with hc'
    exact hc'.symm

/-- A history: a bag with a checksum behind two other bytes, then the writer is cleared and used for another bag, then recycled. -/
example : (match exLeaf.build toyHasher, (builderOf false (natBits 8 7) []).build toyHasher with
    | .ok a, .ok b => decide (([Act.crc true, .root a, .emit, .clear, .root b, .emit, .recycle a, .emit].foldl Act.run (Head.new, [1, 2])).2 =
        [1, 2] ++ (writerOf false true [a]).encode ++ (writerOf false true [b]).encode ++ encode a)
    | _, _ => false) = true := by decide +kernel

/-- A stream that takes three bytes, is interrupted, and fails after two more bytes; and one that takes everything in pieces. -/
example : (match exLeaf.build toyHasher with
    | .ok a => decide ((writerOf false true [a]).encodeToStream 1 [.took 3, .interrupted, .failed 2] = (.failed, (writerOf false true [a]).encode.take 5) ∧
        (writerOf false true [a]).encodeToStream 1 [.took 100, .interrupted, .took 100, .took 1, .took 2, .took 9] = (.ok, (writerOf false true [a]).encode))
    | _ => false) = true := by decide +kernel

end Boc
end Verif
