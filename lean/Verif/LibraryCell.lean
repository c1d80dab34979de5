import Verif.MerkleCodec
/-
C10: library cells made by `CellBuilder::build_library`.
-/
set_option linter.unusedVariables false
namespace Verif

/-! ### Model -/

/-- `cell/builder.rs:319-339` `CellBuilder::build_library`, `build_library_ext`: the tag of a library reference and the hash in an exotic cell; any error is a
panic (`unwrap`). The hash is an array of 32 bytes. -/
def buildLibrary (H : Hasher) (hash : List Byte) : Except Err CCell :=
  match (Wr.u8 2 >>= fun _ => Wr.u256 hash : Wr CCell Unit) { CellB.new with exotic := true } with
  | (.error _, _) => .error .panic
  | (.ok (), b) => match b.build H with
    | .error _ => .error .panic
    | .ok c => .ok c

/-! ### Lemmas -/

theorem library_type (t : Bits) : typeOf true (natBits 8 2 ++ t) = some .libraryReference := Merkle.typeOf_tag (by decide)

theorem library_bytes {hash : List Byte} (h : hash.length = 32) : bytesOfBits (tagged (natBits 8 2 ++ bytesToBits hash)) = 2#8 :: hash := by
  have e : natBits 8 2 ++ bytesToBits hash = bytesToBits (2#8 :: hash) := by
    rw [bytesToBits_cons]
    rfl
  unfold tagged
  rw [e, if_pos (by rw [bytesToBits_length]; omega), bytesOfBits_bytesToBits]

/-! ### C10 -/

/-- **C10, library cells.** For every hash of 32 bytes there is a library cell, without a panic: an exotic cell of that type with the byte 2 and the hash,
without references, of level 0 and depth 0, whose representation hash is the hash of the two descriptor bytes, the tag and the hash. -/
theorem C10_library (H : Hasher) {hash : List Byte} (h : hash.length = 32) :
    ∃ c, buildLibrary H hash = .ok c ∧ Built H c ∧ c.tree = .mk true (natBits 8 2 ++ bytesToBits hash) [] ∧ c.desc.cellType = .libraryReference ∧
      c.desc.levelMask = 0 ∧ c.depth 3 = 0 ∧ c.reprHash = H.sha (8#8 :: 66#8 :: 2#8 :: hash) := by
  have hwf : ({ CellB.new with exotic := true } : CellB CCell).WF :=
    have h : (CellB.new : CellB CCell).WF := CellB.wf_new
    ⟨h.inner, h.refs⟩
  have hw : Writes (Wr.u8 2 >>= fun _ => Wr.u256 hash : Wr CCell Unit) (Enc.bits (natBits 8 2) ++ Enc.bits (bytesToBits hash)) :=
    (Wr.writes_u8 (by decide)).1.seq (Wr.writes_u256 h).1
  have hlen : (natBits 8 2 ++ bytesToBits hash).length = 264 := by rw [List.length_append, natBits_length, bytesToBits_length, h]
  obtain ⟨b, hb, wb, cb, xb⟩ := (hw _ hwf).1 ⟨by
      show ([] ++ (natBits 8 2 ++ bytesToBits hash)).length ≤ 1023
      rw [List.nil_append, hlen]; decide, by
      show ([] ++ ([] ++ [])).length ≤ 4
      decide⟩
  have hbits : b.inner.bits = natBits 8 2 ++ bytesToBits hash := congrArg Prod.fst cb
  have hrefs : b.refs = [] := congrArg Prod.snd cb
  have hx : b.exotic = true := xb
  have hty : typeOf true b.inner.bits = some .libraryReference := by rw [hbits]; exact library_type _
  have hb' := (C10_build H wb (by rw [hrefs]; exact fun _ h => nomatch h)).1
  rw [hrefs, hx] at hb'
  obtain ⟨c, h1, h2, h3, h4⟩ := hb' ⟨⟨.libraryReference, hty, by
    unfold shape
    dsimp only
    rw [if_pos ⟨by rw [hbits, hlen], rfl⟩]
    simp, fun _ _ _ i hi => (nomatch hi)⟩, trivial⟩
  have ht : c.tree = .mk true (natBits 8 2 ++ bytesToBits hash) [] := by rw [h3, hbits]; rfl
  have hinfo : c.tree.info H = ⟨0, levelHash H 0 true (natBits 8 2 ++ bytesToBits hash) 0 [], levelDepth 0 0 []⟩ := by
    rw [ht, Cell.info, Cell.infoList]
    unfold nodeInfo
    rw [library_type]
  have hinv := C10_invariant h2
  refine ⟨c, ?_, h2, ht, ?_, ?_, ?_, ?_⟩
  · unfold buildLibrary
    rw [hb]
    dsimp only
    rw [h1]
  · have := hinv.2.2.2.2.2
    rw [ht] at this
    exact Option.some.inj (this.symm.trans (library_type _))
  · rw [hinv.2.1, hinfo]
  · rw [h2.facts.agrees.depth, hinfo]; rfl
  · have e : c.reprHash = (c.tree.info H).hash 3 := h2.facts.agrees.hash 3
    rw [e, hinfo]
    show H.sha ([CellDescriptor.computeD1 0 true 0, CellDescriptor.computeD2 (natBits 8 2 ++ bytesToBits hash).length] ++
      bytesOfBits (tagged (natBits 8 2 ++ bytesToBits hash)) ++ [] ++ []) = _
    rw [hlen, library_bytes h]
    simp
    rfl

/-- **C10, all library cells.** Every library cell there is, made by a builder or read from bytes, has the contents of one made that way, and the hash
in it is determined by the contents. -/
theorem C10_library_only {H : Hasher} {c : CCell} (h : Built H c) (ht : c.desc.cellType = .libraryReference) :
    ∃ hash c', hash.length = 32 ∧ buildLibrary H hash = .ok c' ∧ c'.tree = c.tree ∧
      ∀ hash' c2, hash'.length = 32 → buildLibrary H hash' = .ok c2 → c2.tree = c.tree → hash' = hash := by
  have hinv := C10_invariant h
  obtain ⟨e, bits, rs⟩ : ∃ e bits rs, c.tree = .mk e bits rs := by cases c.tree; exact ⟨_, _, _, rfl⟩
  obtain ⟨rs, hc⟩ := rs
  rw [hc, ht] at hinv
  obtain ⟨⟨⟨ty, hty, hsh, _⟩, _⟩, _, _, _, _, hty'⟩ := hinv
  dsimp only [Cell.exotic, Cell.bits] at hty'
  rw [hty'] at hty
  cases hty
  have hex : e = true := by
    cases e with
    | true => rfl
    | false => unfold typeOf at hty'; cases hty'
  subst hex
  unfold shape at hsh
  dsimp only at hsh
  split at hsh
  case isFalse => exact absurd rfl hsh
  rename_i hs
  have hrs : rs = [] := by
    cases rs with
    | nil => rfl
    | cons r rs => cases hs.2
  subst hrs
  have htag : bits.take 8 = natBits 8 2 := by
    unfold typeOf at hty'
    rw [if_pos rfl, if_neg (by omega)] at hty'
    have h2 : byteAt bits 0 = 2 := by
      unfold exoticTypeOf at hty'
      split at hty' <;> first | assumption | (cases hty')
    unfold byteAt at h2
    rw [Nat.mul_zero, List.drop_zero] at h2
    rw [← natBits_natOfBits (bits.take 8), h2, List.length_take, hs.1]
    rfl
  have hlen : (bytesOfBits (bits.drop 8)).length = 32 := by rw [bytesOfBits_length, List.length_drop, hs.1]
  have hbits : natBits 8 2 ++ bytesToBits (bytesOfBits (bits.drop 8)) = bits := by
    rw [bytesToBits_bytesOfBits _ (by rw [List.length_drop, hs.1]), ← htag, List.take_append_drop]
  obtain ⟨c', h1, _, h3, _⟩ := C10_library H hlen
  refine ⟨_, c', hlen, h1, by rw [h3, hbits, hc], fun hash' c2 hl hb htr => ?_⟩
  obtain ⟨c3, g1, _, g3, _⟩ := C10_library H hl
  rw [g1] at hb
  cases hb
  rw [g3, hc] at htr
  have hb2 : natBits 8 2 ++ bytesToBits hash' = bits := congrArg Cell.bits htr
  rw [← hbits] at hb2
  exact bytesToBits_inj (List.append_cancel_left hb2)

-- the library cell of the hash 00 01 .. 1f
example : (match buildLibrary toyHasher ((List.range 32).map (BitVec.ofNat 8)) with
  | .ok c => decide (c.tree.bits.length = 264 ∧ c.desc.isExotic = true ∧ c.refs.length = 0)
  | .error _ => false) = true := by decide +kernel

end Verif
