import Verif.BocRepr
import Verif.CellProps
/-
C91: values as the bytes or the text of a BOC, and back.
-/
set_option linter.unusedVariables false
namespace Verif
namespace Boc
open Text

/-! ### Lemmas -/

theorem countUpTo_le (m : LevelMask) : ∀ l, LevelMask.countUpTo m l ≤ l
  | 0 => Nat.le_refl _
  | l + 1 => by
    have := countUpTo_le m l
    have h1 : (m.getLsbD l).toNat ≤ 1 := by cases m.getLsbD l <;> decide
    show LevelMask.countUpTo m l + (m.getLsbD l).toNat ≤ l + 1
    omega

theorem wf_limits {H : Hasher} {e : Bool} {b : Bits} {rs : List Cell} (h : (Cell.mk e b rs).WF H) : b.length ≤ 1023 ∧ rs.length ≤ 4 := by
  unfold Cell.WF at h
  obtain ⟨⟨ty, h1, h2, _⟩, _⟩ := h
  have hl : ((Cell.infoList H rs).map (·.mask)).length = rs.length := by rw [Cell.infoList_eq]; simp
  cases ty with
  | ordinary =>
    unfold shape at h2
    by_cases hc : b.length ≤ 1023 ∧ ((Cell.infoList H rs).map (·.mask)).length ≤ 4
    · rw [hl] at hc; exact hc
    · simp only [if_neg hc] at h2; exact absurd rfl h2
  | prunedBranch =>
    unfold shape at h2
    dsimp only at h2
    split at h2
    next hc =>
      have := countUpTo_le (BitVec.ofNat 8 (byteAt b 1)) 3
      rw [hc.2.2.2] at hl
      exact ⟨by rw [hc.2.2.1]; omega, by rw [← hl]; simp⟩
    next => exact absurd rfl h2
  | libraryReference =>
    unfold shape at h2
    dsimp only at h2
    split at h2
    next hc => rw [hc.2] at hl; exact ⟨by omega, by rw [← hl]; simp⟩
    next => exact absurd rfl h2
  | merkleProof =>
    unfold shape at h2
    dsimp only at h2
    split at h2
    next hc => exact ⟨by omega, by omega⟩
    next => exact absurd rfl h2
  | merkleUpdate =>
    unfold shape at h2
    dsimp only at h2
    split at h2
    next hc => exact ⟨by omega, by omega⟩
    next => exact absurd rfl h2

/-- What `finish` gives, if it gives anything. -/
structure Finished (H : Hasher) (t : Cell) (c : CCell) : Prop where
  run : finish H t = .ok c
  built : Built H c
  plain : Plain c
  tree : c.tree = t

theorem finish_both {H : Hasher} : ∀ t : Cell, (t.WF H → ∃ c, Finished H t c) ∧ (¬ t.WF H → ∃ e, finish H t = .error e) := by
  refine Cell.ind ?_
  intro e b rs ih
  -- the list of children
  have hlist : ∀ l : List Cell, (∀ r ∈ l, (r.WF H → ∃ c, Finished H r c) ∧ (¬ r.WF H → ∃ e, finish H r = .error e)) →
      ((∀ r ∈ l, r.WF H) → ∃ cs, finishList H l = .ok cs ∧ cs.map CCell.tree = l ∧ ∀ c ∈ cs, Built H c ∧ Plain c) ∧
      ((¬ ∀ r ∈ l, r.WF H) → ∃ e, finishList H l = .error e) := by
    intro l
    induction l with
    | nil => exact fun _ => ⟨fun _ => ⟨[], by unfold finishList; rfl, rfl, fun c h => by cases h⟩, fun h => (h (fun r h => by cases h)).elim⟩
    | cons r l ihl =>
      intro h
      obtain ⟨h1, h2⟩ := h r List.mem_cons_self
      obtain ⟨h3, h4⟩ := ihl fun r' hr' => h r' (List.mem_cons_of_mem _ hr')
      constructor
      · intro hw
        obtain ⟨c, fc⟩ := h1 (hw r List.mem_cons_self)
        obtain ⟨cs, e1, e2, e3⟩ := h3 fun r' hr' => hw r' (List.mem_cons_of_mem _ hr')
        refine ⟨c :: cs, by unfold finishList; rw [fc.run, e1], by rw [List.map_cons, fc.tree, e2], ?_⟩
        intro x hx
        cases hx with
        | head => exact ⟨fc.built, fc.plain⟩
        | tail _ hx => exact e3 x hx
      · intro hw
        by_cases hr : r.WF H
        · obtain ⟨c, fc⟩ := h1 hr
          obtain ⟨x, hx⟩ := h4 fun hall => hw fun r' hr' => by
            cases hr' with
            | head => exact hr
            | tail _ hr' => exact hall r' hr'
          exact ⟨x, by unfold finishList; rw [fc.run, hx]⟩
        · obtain ⟨x, hx⟩ := h2 hr
          exact ⟨x, by unfold finishList; rw [hx]⟩
  obtain ⟨l1, l2⟩ := hlist rs ih
  constructor
  · intro hw
    have hrs : ∀ r ∈ rs, r.WF H := by
      unfold Cell.WF at hw
      exact (Cell.WFList_iff H rs).mp hw.2
    obtain ⟨cs, e1, e2, e3⟩ := l1 hrs
    have hlim := wf_limits hw
    have hcs : cs.length ≤ 4 := by have := congrArg List.length e2; rw [List.length_map] at this; omega
    obtain ⟨hwf, hbits⟩ := builderOf_wf e b cs hlim.1 hcs
    obtain ⟨c, h1, h2, h3, _⟩ := (C10_build H hwf (fun r hr => (e3 r hr).1)).1 (by
      rw [hbits]
      show Cell.WF H (.mk e b (cs.map CCell.tree))
      rw [e2]; exact hw)
    refine ⟨c, ?_, h2, (C15_builder H hwf e3 h1).2, ?_⟩
    · unfold finish
      rw [e1]
      show (if b.length ≤ 1023 ∧ cs.length ≤ 4 then _ else _) = _
      rw [if_pos ⟨hlim.1, hcs⟩, h1]
    · rw [h3, hbits]
      show Cell.mk e b (cs.map CCell.tree) = _
      rw [e2]
  · intro hw
    by_cases hrs : ∀ r ∈ rs, r.WF H
    · obtain ⟨cs, e1, e2, e3⟩ := l1 hrs
      by_cases hlim : b.length ≤ 1023 ∧ cs.length ≤ 4
      · obtain ⟨hwf, hbits⟩ := builderOf_wf e b cs hlim.1 hlim.2
        have hf := (C10_build H hwf (fun r hr => (e3 r hr).1)).2 (by
          rw [hbits]
          show ¬ Cell.WF H (.mk e b (cs.map CCell.tree))
          rw [e2]; exact hw)
        unfold finish
        rw [e1]
        simp only [if_pos hlim]
        cases hf with
        | inl hf => exact ⟨_, hf⟩
        | inr hf => exact ⟨_, hf⟩
      · refine ⟨.cellOverflow, ?_⟩
        unfold finish
        rw [e1]
        simp only [if_neg hlim]
    · obtain ⟨x, hx⟩ := l2 hrs
      exact ⟨x, by unfold finish; rw [hx]⟩

theorem finish_ok {H : Hasher} {t : Cell} {c : CCell} (h : finish H t = .ok c) : t.WF H ∧ Built H c ∧ Plain c ∧ c.tree = t := by
  by_cases hw : t.WF H
  · obtain ⟨c', f⟩ := (finish_both t).1 hw
    have := f.run.symm.trans h
    injection this with this
    subst this
    exact ⟨hw, f.built, f.plain, f.tree⟩
  · obtain ⟨x, hx⟩ := (finish_both (H := H) t).2 hw
    rw [hx] at h; cases h

/-- A builder of an ordinary cell over built cells fails with `DepthOverflow` only. -/
theorem build_ordinary {H : Hasher} {bits : Bits} {cs : List CCell} (h1 : bits.length ≤ 1023) (h2 : cs.length ≤ 4) (hb : ∀ c ∈ cs, Built H c) {x : Err}
    (hx : (builderOf false bits cs).build H = .error x) : x = .depthOverflow := by
  obtain ⟨hwf, hbits⟩ := builderOf_wf false bits cs h1 h2
  have hp := CellB.parts_ok hwf
  have hpb := CellB.parts_bits hwf
  obtain ⟨hmask, hexo⟩ := CellB.parts_desc hwf
  have hagree : ∀ r ∈ (builderOf false bits cs).parts.refs, r.Agrees H := fun r h => (Built.facts (hb r h)).agrees
  have hspec := CellParts.finalize_spec (H := H) hp hagree
  dsimp only at hspec
  obtain ⟨s1, _, s3⟩ := hspec
  have hmasks : (Cell.infoList H (CCell.treeList (builderOf false bits cs).parts.refs)).map (·.mask) = (builderOf false bits cs).refs.map fun c => c.desc.levelMask := by
    rw [Cell.infoList_eq, CCell.treeList_eq, List.map_map, List.map_map]
    exact List.map_congr_left fun r h => (hagree r h).mask.symm
  have ht : typeOf (builderOf false bits cs).exotic (builderOf false bits cs).inner.bits = some .ordinary := rfl
  have hsh : shape .ordinary (builderOf false bits cs).inner.bits ((builderOf false bits cs).refs.map fun c => c.desc.levelMask) =
      some (orMasks ((builderOf false bits cs).refs.map fun c => c.desc.levelMask)) := by
    unfold shape
    exact if_pos ⟨by rw [hbits]; exact h1, by rw [List.length_map]; exact h2⟩
  have hlm := CellB.levelMask_shape hwf ht hsh
  have ht' : typeOf (builderOf false bits cs).parts.desc.isExotic (builderOf false bits cs).parts.bits = some .ordinary := by rw [hexo, hpb]; exact ht
  have hsh' : shape .ordinary (builderOf false bits cs).parts.bits ((Cell.infoList H (CCell.treeList (builderOf false bits cs).parts.refs)).map (·.mask)) =
      some (builderOf false bits cs).parts.desc.levelMask := by rw [hpb, hmasks, hmask, hlm]; exact hsh
  by_cases hd : ∀ l, l ≤ 3 → DepthOk (builderOf false bits cs).parts.desc.levelMask (if CellType.ordinary.isMerkle then 1 else 0)
      (Cell.infoList H (CCell.treeList (builderOf false bits cs).parts.refs)) l
  · obtain ⟨hs, e1, _⟩ := s1 .ordinary ⟨ht', hsh', hd⟩
    have : (builderOf false bits cs).build H = .ok _ := e1
    rw [this] at hx; cases hx
  · have : (builderOf false bits cs).build H = .error .depthOverflow := s3 .ordinary ht' hsh' hd
    rw [this] at hx
    injection hx with hx
    exact hx.symm

/-! ### C91 -/

/-- C91: the empty context accepts exactly the well-formed trees. -/
theorem C91_context (H : Hasher) (t : Cell) : emptyContext H t = true ↔ t.WF H := by
  unfold emptyContext
  constructor
  · intro h
    cases hf : finish H t with
    | ok c => exact (finish_ok hf).1
    | error e => rw [hf] at h; cases h
  · intro h
    obtain ⟨c, f⟩ := (finish_both t).1 h
    rw [f.run]

/-- C91: over accepted children, finishing an ordinary cell is what the codecs and the dictionaries take it for: it succeeds if the
context accepts the cell, with that cell, and otherwise fails with `DepthOverflow`. -/
theorem C91_build (H : Hasher) (b : Sl) (h1 : b.bits.length ≤ 1023) (h2 : b.refs.length ≤ 4) (hr : ∀ r ∈ b.refs, emptyContext H r = true) :
    (match finish H (.mk false b.bits b.refs) with
      | .ok c => .ok c.tree
      | .error e => .error e) = buildSl (emptyContext H) b := by
  unfold buildSl
  cases hf : finish H (.mk false b.bits b.refs) with
  | ok c =>
    have := finish_ok hf
    rw [if_pos ((C91_context H _).mpr this.1)]
    show Except.ok c.tree = _
    rw [this.2.2.2]
  | error e =>
    have hn : ¬ emptyContext H (.mk false b.bits b.refs) = true := by unfold emptyContext; rw [hf]; simp
    rw [if_neg hn]
    have hall : ∀ l : List Cell, (∀ r ∈ l, emptyContext H r = true) → ∃ cs, finishList H l = .ok cs ∧ cs.length = l.length ∧ ∀ c ∈ cs, Built H c := by
      intro l
      induction l with
      | nil => exact fun _ => ⟨[], by unfold finishList; rfl, rfl, fun c h => by cases h⟩
      | cons r l ihl =>
        intro h
        obtain ⟨c, f⟩ := (finish_both r).1 ((C91_context H r).mp (h r List.mem_cons_self))
        obtain ⟨cs, e1, e2, e3⟩ := ihl fun r' hr' => h r' (List.mem_cons_of_mem _ hr')
        refine ⟨c :: cs, by unfold finishList; rw [f.run, e1], by simp [e2], ?_⟩
        intro x hx
        cases hx with
        | head => exact f.built
        | tail _ hx => exact e3 x hx
    obtain ⟨cs, e1, e2, e3⟩ := hall b.refs hr
    unfold finish at hf
    rw [e1] at hf
    simp only [if_pos (show b.bits.length ≤ 1023 ∧ cs.length ≤ 4 from ⟨h1, by omega⟩)] at hf
    rw [build_ordinary h1 (by omega) e3 hf]

/-- C91: the text of a cell, in either form, is read back as that cell. -/
theorem C91_text (H : Hasher) {c : CCell} (hb : Built H c) (hp : Plain c) (hmax : AtMost [c] (2 ^ 32 - 1)) :
    Collision H c.tree c.tree ∨ decodeHexText H (encodeHexText c) = .ok c ∧ decodeBase64Text H (encodeBase64Text c) = .ok c ∧
      ∀ readable, deserialize H readable (serialize readable c) = .ok c := by
  cases C15_encode H hb hp hmax with
  | inl h => exact .inl h
  | inr h =>
    have h64 : b64Decode b64std (b64Encode b64std (encode c)) = some (encode c) := b64_roundtrip isAbc_std _
    refine .inr ⟨?_, ?_, ?_⟩
    · unfold decodeHexText encodeHexText
      rw [(decodeHex_spec _ _).mpr (encodeHex_hexOf (encode c)).1]
      exact h
    · unfold decodeBase64Text encodeBase64Text
      rw [h64]
      exact h
    · intro readable
      cases readable with
      | true =>
        have e : serialize true c = .text (b64Encode b64std (encode c)) := rfl
        rw [e]
        unfold deserialize
        simp only [if_true, Serde.asText, h64, h]
      | false =>
        have e : serialize false c = .bytes (encode c) := rfl
        rw [e]
        unfold deserialize
        simp [Serde.asBytes, h]

/-- C91: text is read as the bytes that it denotes (hex digits of either case; base64 in its one padded form), and text that
denotes no bytes is an unknown BOC. -/
theorem C91_text_means (H : Hasher) (t : List Char) :
    (∀ data, HexOf t data → decodeHexText H t = decode H data) ∧ ((¬ ∃ data, HexOf t data) → decodeHexText H t = .error .unknownBocTag) ∧
    (∀ data, t = b64Encode b64std data → decodeBase64Text H t = decode H data) ∧
    ((¬ ∃ data, t = b64Encode b64std data) → decodeBase64Text H t = .error .unknownBocTag) := by
  refine ⟨?_, ?_, ?_, ?_⟩
  · intro data h
    unfold decodeHexText
    rw [(decodeHex_spec _ _).mpr h]
  · intro h
    unfold decodeHexText
    cases hd : decodeHex t with
    | none => rfl
    | some data => exact absurd ⟨data, (decodeHex_spec _ _).mp hd⟩ h
  · rintro data rfl
    unfold decodeBase64Text
    rw [b64_roundtrip isAbc_std]
  · intro h
    unfold decodeBase64Text
    cases hd : b64Decode b64std t with
    | none => rfl
    | some data => exact absurd ⟨data, (b64_spec isAbc_std t data).mp hd⟩ h

/-- C91: a value can be encoded exactly if its encoding fits into one cell and the cell with that encoding is well-formed. -/
theorem C91_encodable (H : Hasher) {α : Type} {T : Tlb α} (hT : T.Sound) {v : α} (hv : T.ok v) :
    (∃ bytes, reprEncode H T v = .ok bytes) ↔ (T.enc v).Fits ∧ (Tlb.cellOf (T.enc v)).WF H := by
  unfold reprEncode
  rw [hT.stored hv]
  by_cases hf : (T.enc v).Fits
  · rw [if_pos hf]
    show (∃ bytes, encoded (finish H (Tlb.cellOf (T.enc v))) = .ok bytes) ↔ _
    constructor
    · rintro ⟨bytes, h⟩
      cases hc : finish H (Tlb.cellOf (T.enc v)) with
      | ok c => exact ⟨hf, (finish_ok hc).1⟩
      | error e => rw [hc] at h; cases h
    · rintro ⟨_, h⟩
      obtain ⟨c, f⟩ := (finish_both _).1 h
      exact ⟨encode c, by rw [f.run]; rfl⟩
  · rw [if_neg hf]
    exact ⟨fun h => (by obtain ⟨_, h⟩ := h; cases h), fun h => absurd h.1 hf⟩

/-- Under this cell there are at most `n` different cells, counted by their hashes. -/
def Distinct (H : Hasher) (t : Cell) (n : Nat) : Prop := ∃ L : List Hash, L.length ≤ n ∧ ∀ x, Cell.Sub x t → (x.info H).hash 3 ∈ L

theorem sub_tree {a c : CCell} (h : CCell.Sub a c) : Cell.Sub a.tree c.tree := by
  induction h with
  | refl => exact .refl _
  | @child r t h _ ih =>
    refine .child (r := r.tree) ?_ ih
    obtain ⟨d, n, bs, rs, hs⟩ := t
    show r.tree ∈ CCell.treeList rs
    rw [CCell.treeList_eq]
    exact List.mem_map_of_mem h

theorem Distinct.atMost {H : Hasher} {c : CCell} {n : Nat} (hb : Built H c) (h : Distinct H c.tree n) : AtMost [c] n := by
  obtain ⟨L, h1, h2⟩ := h
  refine ⟨L, h1, ?_⟩
  rintro a ⟨r, hr, hs⟩
  rw [List.mem_singleton.mp hr] at hs
  have := h2 a.tree (sub_tree hs)
  rw [← (C11_hash_depth (Built.sub hs hb) 3).1] at this
  exact this

/-- C91: whatever value of whatever type is encoded, as bytes, as hex or as base64, is decoded to that value. -/
theorem C91_repr (H : Hasher) {α : Type} {T : Tlb α} (hT : T.Sound) {v : α} (hv : T.ok v) (hmax : Distinct H (Tlb.cellOf (T.enc v)) (2 ^ 32 - 1)) :
    Collision H (Tlb.cellOf (T.enc v)) (Tlb.cellOf (T.enc v)) ∨
    (∀ bytes, reprEncode H T v = .ok bytes → reprDecode H T bytes = .ok v) ∧
    (∀ t, reprEncodeHex H T v = .ok t → reprDecodeHex H T t = .ok v) ∧
    (∀ t, reprEncodeBase64 H T v = .ok t → reprDecodeBase64 H T t = .ok v) := by
  by_cases hcol : Collision H (Tlb.cellOf (T.enc v)) (Tlb.cellOf (T.enc v))
  · exact .inl hcol
  have key : ∀ bytes, reprEncode H T v = .ok bytes → reprDecode H T bytes = .ok v := by
    intro bytes h
    obtain ⟨hf, hwf⟩ := (C91_encodable H hT hv).mp ⟨bytes, h⟩
    unfold reprEncode at h
    rw [hT.stored hv, if_pos hf] at h
    have h : encoded (finish H (Tlb.cellOf (T.enc v))) = .ok bytes := h
    obtain ⟨c, f⟩ := (finish_both _).1 hwf
    rw [f.run] at h
    injection h with h
    subst h
    have hr := C15_encode H f.built f.plain (Distinct.atMost f.built (by rw [f.tree]; exact hmax))
    rw [f.tree] at hr
    have hr := hr.resolve_left hcol
    unfold reprDecode
    rw [hr]
    have hl : Tlb.lazyNew (fun _ => true) T v = .ok (Tlb.cellOf (T.enc v)) := by
      unfold Tlb.lazyNew
      rw [hT.stored hv, if_pos hf]
      rfl
    simp only [f.tree, (hT.lazy_round hv hl).2]
  refine .inr ⟨key, ?_, ?_⟩
  · intro t h
    unfold reprEncodeHex at h
    cases hb : reprEncode H T v with
    | error e => rw [hb] at h; cases h
    | ok b =>
      rw [hb] at h
      injection h with h
      subst h
      unfold reprDecodeHex
      rw [(decodeHex_spec _ _).mpr (encodeHex_hexOf b).1]
      exact key b hb
  · intro t h
    unfold reprEncodeBase64 at h
    cases hb : reprEncode H T v with
    | error e => rw [hb] at h; cases h
    | ok b =>
      rw [hb] at h
      injection h with h
      subst h
      unfold reprDecodeBase64
      rw [b64_roundtrip isAbc_std]
      exact key b hb

/-- C91: whatever decodes to a value is a BOC whose root is an ordinary cell that begins with an encoding of this value; what
follows in the cell is not looked at. And every such BOC decodes to the value. -/
theorem C91_decoded (H : Hasher) {α : Type} {T : Tlb α} (hT : T.Sound) (data : List Byte) (v : α) :
    reprDecode H T data = .ok v ↔
      ∃ c e rest, decode H data = .ok c ∧ c.tree.exotic = false ∧ T.R v e ∧ ((c.tree.bits, c.tree.refs) : Enc Cell) = e ++ rest := by
  constructor
  · intro h
    unfold reprDecode at h
    cases hd : decode H data with
    | error e => rw [hd] at h; cases h
    | ok c =>
      rw [hd] at h
      dsimp only at h
      cases hl : Tlb.lazyLoad T c.tree with
      | error e => rw [hl] at h; cases h
      | ok w =>
        rw [hl] at h
        injection h with h
        subst h
        unfold Tlb.lazyLoad at hl
        split at hl
        · cases hl
        · rename_i hx
          split at hl
          · rename_i hlim
            obtain ⟨w', ct⟩ := Tlb.reader_contents (b := c.tree.bits) (r := c.tree.refs) hlim
            obtain ⟨e, h1, h2, _⟩ := hT.ld.exact _ (T.load (Sl.reader ⟨c.tree.bits, c.tree.refs⟩)).2 w w' (Prod.ext hl rfl)
            exact ⟨c, e, _, rfl, by simpa using hx, h1, ct.symm.trans h2⟩
          · cases hl
  · rintro ⟨c, e, rest, hd, hx, hR, hc⟩
    unfold reprDecode
    rw [hd]
    have hwf := (C16_decode H data hd).2.1
    have hlim : c.tree.bits.length ≤ 1023 ∧ c.tree.refs.length ≤ 4 := by
      generalize c.tree = t at hwf
      obtain ⟨a, b, d⟩ := t
      exact wf_limits hwf
    obtain ⟨w', ct⟩ := Tlb.reader_contents (b := c.tree.bits) (r := c.tree.refs) hlim
    obtain ⟨s, q, _⟩ := hT.ld.reads v e hR _ rest w' (ct.trans hc)
    have : Tlb.lazyLoad T c.tree = .ok v := by
      unfold Tlb.lazyLoad
      rw [if_neg (by rw [hx]; exact Bool.false_ne_true), if_pos hlim, q]
    simp only [this]

/-- C91: no input makes a decoder panic, and failures to decode the BOC are told from failures to decode the value. -/
theorem C91_safe (H : Hasher) {α : Type} {T : Tlb α} (hT : T.Sound) (data : List Byte) :
    (∀ e, reprDecode H T data = .error (.invalidBoc e) ↔ decode H data = .error e) ∧
    reprDecode H T data ≠ .error (.invalidBoc .panic) ∧ reprDecode H T data ≠ .error (.invalidBoc .fault) ∧
    reprDecode H T data ≠ .error (.invalidData .panic) ∧ reprDecode H T data ≠ .error (.invalidData .fault) := by
  have hs := (C16_safe H ⟨some 1, some 1⟩ data).2.2.1
  have h0 : ∀ e, reprDecode H T data = .error (.invalidBoc e) ↔ decode H data = .error e := by
    intro e
    unfold reprDecode
    cases hd : decode H data with
    | error e' => simp
    | ok c =>
      dsimp only
      cases Tlb.lazyLoad T c.tree <;> simp
  have hl : ∀ c : Cell, Tlb.lazyLoad T c ≠ .error .panic ∧ Tlb.lazyLoad T c ≠ .error .fault := by
    intro c
    unfold Tlb.lazyLoad
    split
    · exact ⟨(by intro h; cases h), (by intro h; cases h)⟩
    · split
      · rename_i hlim
        obtain ⟨w', _⟩ := Tlb.reader_contents (b := c.bits) (r := c.refs) hlim
        obtain ⟨_, _, h1, h2⟩ := hT.ld.safe _ w'
        exact ⟨h2, h1⟩
      · exact ⟨(by intro h; cases h), (by intro h; cases h)⟩
  have h1 : ∀ x, reprDecode H T data = .error (.invalidData x) → ∃ c, Tlb.lazyLoad T c = .error x := by
    intro x h
    unfold reprDecode at h
    cases hd : decode H data with
    | error e' => rw [hd] at h; simp at h
    | ok c =>
      rw [hd] at h
      dsimp only at h
      cases hl : Tlb.lazyLoad T c.tree with
      | ok v => rw [hl] at h; cases h
      | error e => rw [hl] at h; simp at h; exact ⟨c.tree, by rw [hl, h]⟩
  refine ⟨h0, fun h => hs.2 ((h0 _).mp h), fun h => hs.1 ((h0 _).mp h), ?_, ?_⟩
  · intro h
    obtain ⟨c, hc⟩ := h1 _ h
    exact (hl c).1 hc
  · intro h
    obtain ⟨c, hc⟩ := h1 _ h
    exact (hl c).2 hc

theorem fill_get (f : List CCell → List Byte) (chunks : List (List CCell)) : ∀ (order : List Nat) (slots : List (Option (List Byte))),
    slots.length = chunks.length → ∀ i, i < chunks.length →
      (order.foldl (fun slots i => slots.set i (chunks[i]?.map f)) slots)[i]? = if i ∈ order then some (chunks[i]?.map f) else slots[i]?
  | [], slots, hl, i, hi => by simp
  | j :: order, slots, hl, i, hi => by
    rw [List.foldl_cons, fill_get f chunks order _ (by rw [List.length_set]; exact hl) i hi]
    by_cases h : i ∈ order
    · rw [if_pos h, if_pos (List.mem_cons_of_mem _ h)]
    · rw [if_neg h]
      by_cases e : j = i
      · subst e
        rw [if_pos List.mem_cons_self, List.getElem?_set_self (by omega)]
      · rw [if_neg (fun hm => by
          rcases List.mem_cons.mp hm with h' | h'
          · exact e h'.symm
          · exact h h'), List.getElem?_set_ne e]

theorem fill_length (f : List CCell → List Byte) (chunks : List (List CCell)) : ∀ (order : List Nat) (slots : List (Option (List Byte))),
    (order.foldl (fun slots i => slots.set i (chunks[i]?.map f)) slots).length = slots.length
  | [], slots => rfl
  | j :: order, slots => by rw [List.foldl_cons, fill_length f chunks order, List.length_set]

theorem fill_all (f : List CCell → List Byte) {chunks : List (List CCell)} {order : List Nat} (h : ∀ i, i < chunks.length → i ∈ order) :
    fillSlots f chunks order = chunks.map fun c => some (f c) := by
  unfold fillSlots
  apply List.ext_getElem?
  intro i
  by_cases hi : i < chunks.length
  · rw [fill_get f chunks order _ (by simp) i hi, if_pos (h i hi), List.getElem?_map]
    rw [List.getElem?_eq_getElem hi]
    rfl
  · rw [List.getElem?_eq_none (by rw [fill_length]; simp; omega), List.getElem?_eq_none (by simp; omega)]

/-- C91: the encoder with `rayon` writes the same bytes, in whatever order its tasks end. -/
theorem C91_rayon (w : Writer) (k : Nat) (hk : 0 < k) (order : List Nat) (h : ∀ i, i < (rchunks k w.cells.length w.cells).length → i ∈ order) :
    w.encodeRayon k order = some w.encode := by
  unfold Writer.encodeRayon
  have hc : (if w.cells.length < k * 2 then some (w.cellsBytes w.stats.refSize w.cells)
      else if (fillSlots (w.cellsBytes w.stats.refSize) (rchunks k w.cells.length w.cells) order).all Option.isSome then
        some ((fillSlots (w.cellsBytes w.stats.refSize) (rchunks k w.cells.length w.cells) order).flatMap fun s => s.getD []) else none) =
      some (w.cellsBytes w.stats.refSize w.cells) := by
    by_cases hs : w.cells.length < k * 2
    · rw [if_pos hs]
    · rw [if_neg hs, fill_all _ h, if_pos (by simp)]
      rw [← rchunks_flatten w w.stats.refSize k hk w.cells.length w.cells (Nat.le_refl _)]
      congr 1
      generalize rchunks k w.cells.length w.cells = l
      induction l with
      | nil => rfl
      | cons a l ih => simp only [List.map_cons, List.flatMap_cons, List.flatten_cons, Option.getD_some, ih]
  dsimp only
  rw [hc]
  rfl

/-! ### Non-vacuity -/

/-- Five cells in chunks of two: three tasks, ending in some order. -/
def exChain : Cell := .mk false [true] [.mk false [false] [.mk false [true, true] [.mk false [] [.mk false [false, true] []]]]]
example : (match finish toyHasher exChain with
    | .ok c => decide ((Writer.withRoot c).encodeRayon 2 [1, 2, 0] = some (encode c) ∧ (Writer.withRoot c).encodeRayon 2 [1, 0] = none ∧
        (rchunks 2 (Writer.withRoot c).cells.length (Writer.withRoot c).cells).length = 3)
    | .error _ => false) = true := by decide +kernel

/-- A value of two cells: a number and a child. -/
def exRepr : Nat × Cell := (7, .mk false [true, false, true] [])
def exReprT : Tlb (Nat × Cell) := Tlb.u32.pair Tlb.cell
theorem exReprT_sound : exReprT.Sound := Tlb.u32_sound.pair Tlb.cell_sound
theorem exRepr_ok : exReprT.ok exRepr := ⟨(by show (7 : Nat) < 2 ^ 32; decide), trivial⟩

example : Distinct toyHasher (Tlb.cellOf (exReprT.enc exRepr)) (2 ^ 32 - 1) := by
  refine ⟨[((Tlb.cellOf (exReprT.enc exRepr)).info toyHasher).hash 3, (exRepr.2.info toyHasher).hash 3], by simp, ?_⟩
  intro x hx
  cases hx with
  | refl => exact List.mem_cons_self
  | child h s =>
    have h : _ ∈ [exRepr.2] := h
    rw [List.mem_singleton.mp h] at s
    cases s with
    | refl => exact List.mem_cons_of_mem _ List.mem_cons_self
    | child h _ =>
      have h : _ ∈ ([] : List Cell) := h
      cases h

/-- The value is encoded in all three ways, and read back. -/
example : (match reprEncode toyHasher exReprT exRepr with
    | .ok b => match reprDecode toyHasher exReprT b with | .ok v => v.1 == 7 && v.2.bits == [true, false, true] | .error _ => false
    | .error _ => false) = true := by decide +kernel
example : (match reprEncodeHex toyHasher exReprT exRepr with
    | .ok b => (match reprDecodeHex toyHasher exReprT b with | .ok v => v.1 == 7 && v.2.bits == [true, false, true] | .error _ => false) &&
      decide (b.take 8 = "b5ee9c72".toList) | .error _ => false) = true := by decide +kernel
example : (match reprEncodeBase64 toyHasher exReprT exRepr with
    | .ok b => (match reprDecodeBase64 toyHasher exReprT b with | .ok v => v.1 == 7 && v.2.bits == [true, false, true] | .error _ => false) &&
      decide (b.take 4 = "te6c".toList) | .error _ => false) = true := by decide +kernel
/-- A shorter type reads the beginning of the same cell. -/
example : (match reprEncode toyHasher exReprT exRepr with
    | .ok b => decide ((reprDecode toyHasher Tlb.u16 b) = .ok 0) | .error _ => false) = true := by decide +kernel
example : (finish toyHasher (Tlb.cellOf (exReprT.enc exRepr))).isOk = true := by decide +kernel
example : decodeHexText toyHasher "xyz".toList matches .error .unknownBocTag := by decide +kernel
example : decodeBase64Text toyHasher "te6c".toList matches .error .unexpectedEof := by decide +kernel
example : (match finish toyHasher (Tlb.cellOf (exReprT.enc exRepr)) with
    | .ok c => (match deserialize toyHasher true (serialize true c) with | .ok c' => decide (c'.reprHash = c.reprHash) | .error _ => false) &&
      (match deserialize toyHasher false (serialize true c) with | .ok _ => false | .error _ => true)
    | .error _ => false) = true := by decide +kernel

end Boc
end Verif
