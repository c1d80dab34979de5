import Verif.AbiSucceeds
/-
C74: when a value can be encoded.
-/
set_option linter.unusedVariables false
set_option linter.unusedSimpArgs false
namespace Verif
namespace Abi

/-! ### Specification -/

mutual
/-- Values for which the size computed beforehand is never too small: variable-length integers fit into their types, keys have the length of their type, there
are no arrays of fixed length and, before version 2.2, no negative variable-length integers and no empty maps. -/
def Simple (ver : Ver) : Val → Prop
  | .varuint n v => VarFits n v
  | .varint n x => VarFits n x ∧ (ver.useMax = false → 0 ≤ x)
  | .tuple items => SimpleItems ver items
  | .array _ vs => SimpleElems ver vs
  | .fixedArray _ _ => False
  | .map _ _ es => (ver.useMax = false → es.isEmpty = false) ∧ SimpleEntries ver es
  | .present _ v => Simple ver v
  | .ref v => Simple ver v
  | _ => True
def SimpleItems (ver : Ver) : Items → Prop
  | .nil => True
  | .cons _ v r => Simple ver v ∧ SimpleItems ver r
def SimpleElems (ver : Ver) : Elems → Prop
  | .nil => True
  | .cons v r => Simple ver v ∧ SimpleElems ver r
def SimpleEntries (ver : Ver) : Entries → Prop
  | .nil => True
  | .cons key v r => key.bits.length = key.type.bits ∧ Simple ver v ∧ SimpleEntries ver r
end

/-! ### Lemmas -/

theorem signed_len {x : Int} (h : 0 ≤ x) : (signedBytesBe x).length = max 1 ((Big.bitLen x.natAbs + 7) / 8) := by
  unfold signedBytesBe
  rw [if_neg (by omega), List.length_reverse]
  unfold Big.toBytesLe
  rw [Big.leBytes_length]

mutual
theorem simple_fixed {ver : Ver} : ∀ v : Val, Simple ver v → v.type.fixed = 0
  | .uint _ _, _ => rfl
  | .int _ _, _ => rfl
  | .varuint _ _, _ => rfl
  | .varint _ _, _ => rfl
  | .bool _, _ => rfl
  | .cell _, _ => rfl
  | .address _, _ => rfl
  | .bytes _, _ => rfl
  | .fixedBytes _, _ => rfl
  | .string _, _ => rfl
  | .token _, _ => rfl
  | .tuple l, h => by
    simp only [Simple] at h
    exact simpleItems_fixed l h
  | .array _ _, _ => rfl
  | .fixedArray _ _, h => by simp only [Simple] at h
  | .map _ _ _, _ => rfl
  | .absent _, _ => rfl
  | .present _ _, _ => rfl
  | .ref _, _ => rfl
theorem simpleItems_fixed {ver : Ver} : ∀ l : Items, SimpleItems ver l → l.types.fixed = 0
  | .nil, _ => rfl
  | .cons n v r, h => by
    simp only [SimpleItems] at h
    have h1 := simple_fixed v h.1
    have h2 := simpleItems_fixed r h.2
    show v.type.fixed + r.types.fixed = 0
    omega
end

mutual
theorem simple_maps {ver : Ver} (hu : ver.useMax = false) : ∀ v : Val, Simple ver v → v.noEmptyMap = true
  | .uint _ _, _ => rfl
  | .int _ _, _ => rfl
  | .varuint _ _, _ => rfl
  | .varint _ _, _ => rfl
  | .bool _, _ => rfl
  | .cell _, _ => rfl
  | .address _, _ => rfl
  | .bytes _, _ => rfl
  | .fixedBytes _, _ => rfl
  | .string _, _ => rfl
  | .token _, _ => rfl
  | .tuple l, h => by
    simp only [Simple] at h
    exact simpleItems_maps hu l h
  | .array _ _, _ => rfl
  | .fixedArray _ _, h => by simp only [Simple] at h
  | .map _ _ es, h => by
    simp only [Simple] at h
    show (!es.isEmpty) = true
    rw [h.1 hu]; rfl
  | .absent _, _ => rfl
  | .present _ _, _ => rfl
  | .ref _, _ => rfl
theorem simpleItems_maps {ver : Ver} (hu : ver.useMax = false) : ∀ l : Items, SimpleItems ver l → l.noEmptyMap = true
  | .nil, _ => rfl
  | .cons n v r, h => by
    simp only [SimpleItems] at h
    show (v.noEmptyMap && r.noEmptyMap) = true
    rw [simple_maps hu v h.1, simpleItems_maps hu r h.2]; rfl
end

mutual
theorem stored_exact {ver : Ver} (hu : ver.useMax = false) : ∀ v : Val, Simple ver v → v.stored.Le v.exact
  | .uint _ _, _ => ⟨Nat.le_refl _, Nat.le_refl _⟩
  | .int _ _, _ => ⟨Nat.le_refl _, Nat.le_refl _⟩
  | .varuint n v, h => by
    refine ⟨?_, Nat.le_refl _⟩
    show lenBits n + (signedBytesBe (v : Int)).length * 8 ≤ lenBits n + max 8 (8 * ((Big.bitLen v + 7) / 8))
    rw [signed_len (by omega)]
    have : (v : Int).natAbs = v := rfl
    rw [this]
    omega
  | .varint n x, h => by
    simp only [Simple] at h
    refine ⟨?_, Nat.le_refl _⟩
    show lenBits n + (signedBytesBe x).length * 8 ≤ lenBits n + max 8 (8 * ((Big.bitLen x.natAbs + 7) / 8))
    rw [signed_len (h.2 hu)]
    omega
  | .bool _, _ => ⟨Nat.le_refl _, Nat.le_refl _⟩
  | .cell _, _ => ⟨Nat.le_refl _, Nat.le_refl _⟩
  | .address _, _ => ⟨Nat.le_refl _, Nat.le_refl _⟩
  | .bytes _, _ => ⟨Nat.le_refl _, Nat.le_refl _⟩
  | .fixedBytes _, _ => ⟨Nat.le_refl _, Nat.le_refl _⟩
  | .string _, _ => ⟨Nat.le_refl _, Nat.le_refl _⟩
  | .token _, _ => ⟨Nat.le_refl _, Nat.le_refl _⟩
  | .tuple l, h => by
    simp only [Simple] at h
    exact storedItems_exact hu l h
  | .array _ _, _ => ⟨Nat.le_refl _, Nat.le_refl _⟩
  | .fixedArray _ _, _ => ⟨Nat.le_refl _, Nat.le_refl _⟩
  | .map _ _ _, _ => ⟨Nat.le_refl _, Nat.le_refl _⟩
  | .absent _, _ => ⟨Nat.le_refl _, Nat.le_refl _⟩
  | .present t v, h => by
    simp only [Simple] at h
    obtain ⟨h1, h2⟩ := stored_exact hu v h
    show Size.Le (if t.max.small then ⟨1, 0⟩ + v.stored else ⟨1, 1⟩) (if t.max.small then ⟨1, 0⟩ + v.exact else ⟨1, 1⟩)
    split
    · exact ⟨Nat.add_le_add_left h1 1, Nat.add_le_add_left h2 0⟩
    · exact ⟨Nat.le_refl _, Nat.le_refl _⟩
  | .ref _, _ => ⟨Nat.le_refl _, Nat.le_refl _⟩
theorem storedItems_exact {ver : Ver} (hu : ver.useMax = false) : ∀ l : Items, SimpleItems ver l → l.stored.Le l.exact
  | .nil, _ => ⟨Nat.le_refl _, Nat.le_refl _⟩
  | .cons n v r, h => by
    simp only [SimpleItems] at h
    obtain ⟨a1, a2⟩ := stored_exact hu v h.1
    obtain ⟨b1, b2⟩ := storedItems_exact hu r h.2
    exact ⟨Nat.add_le_add a1 b1, Nat.add_le_add a2 b2⟩
end

theorem ite_no {α : Type} {ver : Ver} (hu : ver.useMax = false) (a b : α) : (if ver.useMax = true then a else b) = b := if_neg (by rw [hu]; decide)

mutual
theorem asks_stored {ver : Ver} (hu : ver.useMax = false) : ∀ v : Val, Simple ver v → v.asks ver = v.stored
  | .uint _ _, _ => rfl
  | .int _ _, _ => rfl
  | .varuint n v, _ => by
    show (⟨lenBits n + (if ver.useMax = true then (n - 1) * 8 else (signedBytesBe (v : Int)).length * 8), 0⟩ : Size) = _
    rw [ite_no hu]; rfl
  | .varint n x, _ => by
    show (⟨lenBits n + (if ver.useMax = true then (n - 1) * 8 else (signedBytesBe x).length * 8), 0⟩ : Size) = _
    rw [ite_no hu]; rfl
  | .bool _, _ => rfl
  | .cell _, _ => rfl
  | .address a, _ => by
    show (⟨if ver.useMax = true then 591 else a.bitLen, 0⟩ : Size) = _
    rw [ite_no hu]; rfl
  | .bytes _, _ => rfl
  | .fixedBytes _, _ => rfl
  | .string _, _ => rfl
  | .token v, _ => by
    show (⟨if ver.useMax = true then 124 else (VarKind.tokens.bitLen v).getD 124, 0⟩ : Size) = _
    rw [ite_no hu]; rfl
  | .tuple l, h => by
    simp only [Simple] at h
    exact asksItems_stored hu l h
  | .array _ vs, _ => by
    show (⟨33, if ver.useMax = true then 1 else if vs.isEmpty = true then 0 else 1⟩ : Size) = _
    rw [ite_no hu]; rfl
  | .fixedArray _ _, h => by simp only [Simple] at h
  | .map _ _ es, h => by
    simp only [Simple] at h
    show (⟨1, 1⟩ : Size) = ⟨1, if es.isEmpty then 0 else 1⟩
    rw [h.1 hu]; rfl
  | .absent t, _ => by
    show (if ver.useMax = true then optMax t else (⟨1, 0⟩ : Size)) = _
    rw [ite_no hu]; rfl
  | .present t v, _ => by
    show (if ver.useMax = true then optMax t else (Val.present t v).stored) = _
    rw [ite_no hu]
  | .ref _, _ => rfl
theorem asksItems_stored {ver : Ver} (hu : ver.useMax = false) : ∀ l : Items, SimpleItems ver l → l.asks ver = l.stored
  | .nil, _ => rfl
  | .cons n v r, h => by
    simp only [SimpleItems] at h
    show v.asks ver + r.asks ver = v.stored + r.stored
    rw [asks_stored hu v h.1, asksItems_stored hu r h.2]
end

theorem simple_snug {ver : Ver} {v : Val} (hg : Good ver v) (hs : Simple ver v) (hw : Writable ver v) : Snug ver v := by
  refine Or.inr (Or.inl ?_)
  cases hu : ver.useMax with
  | true =>
    have := asks_max v hg hw
    rw [simple_fixed v hs, Nat.add_zero] at this
    rw [size_max hu]
    exact this
  | false =>
    rw [size_exact hu, asks_stored hu v hs]
    exact stored_exact hu v hs

mutual
theorem simple_writable {ver : Ver} : ∀ v : Val, Good ver v → Simple ver v → Writable ver v
  | .uint _ _, _, _ => by simp only [Writable]
  | .int _ _, _, _ => by simp only [Writable]
  | .varuint _ _, _, h => by simpa only [Simple, Writable] using h
  | .varint _ _, _, h => by
    simp only [Simple] at h
    simp only [Writable]
    exact h.1
  | .bool _, _, _ => by simp only [Writable]
  | .cell _, _, _ => by simp only [Writable]
  | .address _, _, _ => by simp only [Writable]
  | .bytes _, _, _ => by simp only [Writable]
  | .fixedBytes _, _, _ => by simp only [Writable]
  | .string _, _, _ => by simp only [Writable]
  | .token _, _, _ => by simp only [Writable]
  | .tuple l, hg, h => by
    simp only [Good] at hg
    simp only [Simple] at h
    simp only [Writable]
    exact simple_writableItems l hg.2 h
  | .array t vs, hg, h => by
    simp only [Good] at hg
    simp only [Simple] at h
    simp only [Writable]
    exact simple_writableElems t vs hg.2.2 h
  | .fixedArray _ _, _, h => by simp only [Simple] at h
  | .map k t es, hg, h => by
    simp only [Good] at hg
    simp only [Simple] at h
    simp only [Writable]
    exact simple_writableEntries k t es hg.2.2.1 h.2
  | .absent _, _, _ => by simp only [Writable]
  | .present t v, hg, h => by
    simp only [Good] at hg
    simp only [Simple] at h
    simp only [Writable]
    have hw := simple_writable v hg.2.1 h
    exact ⟨hw, fun _ => simple_snug hg.2.1 h hw⟩
  | .ref v, hg, h => by
    simp only [Good] at hg
    simp only [Simple] at h
    simp only [Writable]
    have hw := simple_writable v hg.1 h
    exact ⟨hw, simple_snug hg.1 h hw⟩
theorem simple_writableItems {ver : Ver} : ∀ l : Items, GoodItems ver l → SimpleItems ver l → WritableItems ver l
  | .nil, _, _ => by simp only [WritableItems]
  | .cons n v r, hg, h => by
    simp only [GoodItems] at hg
    simp only [SimpleItems] at h
    simp only [WritableItems]
    exact ⟨simple_writable v hg.1 h.1, simple_writableItems r hg.2 h.2⟩
theorem simple_writableElems {ver : Ver} (t : Ty) : ∀ l : Elems, GoodElems ver t l → SimpleElems ver l → WritableElems ver l
  | .nil, _, _ => by simp only [WritableElems]
  | .cons v r, hg, h => by
    simp only [GoodElems] at hg
    simp only [SimpleElems] at h
    simp only [WritableElems]
    have hw := simple_writable v hg.2.1 h.1
    exact ⟨hw, simple_snug hg.2.1 h.1 hw, simple_writableElems t r hg.2.2.2 h.2⟩
theorem simple_writableEntries {ver : Ver} (k : PTy) (t : Ty) : ∀ l : Entries, GoodEntries ver k t l → SimpleEntries ver l → WritableEntries ver l
  | .nil, _, _ => by simp only [WritableEntries]
  | .cons key v r, hg, h => by
    simp only [GoodEntries] at hg
    simp only [SimpleEntries] at h
    simp only [WritableEntries]
    have hw := simple_writable v hg.2.2.2.1 h.2.1
    exact ⟨h.1, hw, simple_snug hg.2.2.2.1 h.2.1 hw, simple_writableEntries k t r hg.2.2.2.2.2 h.2.2⟩
end

/-! ### C74: values that can be encoded -/

/-- A value is encoded without an error if the room asked for on the way is covered by the sizes computed beforehand. -/
theorem C74_succeeds (acc : Cell → Bool) (hacc : ∀ c, acc c = true) (ver : Ver) (v : Val) (hg : Good ver v) (hw : Writable ver v) (hs : Snug ver v) :
    ∃ c, encode acc ver v = .ok c := by
  obtain ⟨b, hb, _⟩ := child_snug hacc (write_ok hacc v hg hw) hs
  unfold encode
  rw [hb]
  exact build_all hacc b

/-- In particular this holds for simple values: they are encoded, and come back. -/
theorem C74_total (acc : Cell → Bool) (hacc : ∀ c, acc c = true) (ver : Ver) (hv : 1 ≤ ver.major) (v : Val) (hg : Good ver v) (hs : Simple ver v) :
    ∃ c, encode acc ver v = .ok c ∧ ∀ part, decode ver part v.type c = .ok v := by
  have hw := simple_writable v hg hs
  obtain ⟨c, hc⟩ := C74_succeeds acc hacc ver v hg hw (simple_snug hg hs hw)
  refine ⟨c, hc, fun part => ?_⟩
  refine C74_round_partial acc ver hv v hg ?_ c part hc
  cases hu : ver.useMax with
  | true => exact Or.inl hu
  | false => exact Or.inr (Or.inl (simple_maps hu v hs))

theorem exVal_simple : Simple ⟨2, 2⟩ exVal := by
  simp only [exVal, Simple, SimpleItems, SimpleElems, SimpleEntries, and_true, true_and]
  exact ⟨⟨⟨by decide +kernel, by decide +kernel⟩, fun h => absurd h (by decide)⟩, fun h => absurd h (by decide), natBits_length _ _, natBits_length _ _⟩

/-- A value of ten parts that spreads over many cells. -/
example : ∃ c, encode anyCell ⟨2, 2⟩ exVal = .ok c ∧ ∀ part, decode ⟨2, 2⟩ part exVal.type c = .ok exVal :=
  C74_total anyCell (fun _ => rfl) ⟨2, 2⟩ (by decide) exVal (exVal_good _).1 exVal_simple

/-- Before version 2.2, with nonnegative integers only. -/
example : ∃ c, encode anyCell ⟨2, 0⟩ (tup [.uint 800 3, .int 800 (-4), .varint 4 100]) = .ok c := by
  refine (C74_total anyCell (fun _ => rfl) ⟨2, 0⟩ (by decide) _ ?_ ?_).imp fun _ h => h.1
  · simp only [tup, List.foldr_cons, List.foldr_nil, Good, GoodItems, and_true]
    exact ⟨by simp, by decide +kernel, by decide +kernel, by decide, fun _ => by decide, by decide +kernel⟩
  · simp only [tup, List.foldr_cons, List.foldr_nil, Simple, SimpleItems, and_true, true_and]
    exact ⟨⟨by decide +kernel, by decide +kernel⟩, fun _ => by decide⟩

/-- Before version 2.2 the size computed for a negative variable-length integer can be one byte too small: `-200` takes two bytes, one is counted. Then a value
is refused although it fits; with `-100` instead it is encoded, and so it is in other versions. -/
def negSize (x : Int) : Val := tup [.cell exCell, .cell exCell, .cell exCell, .cell exCell, .varint 32 x, .uint 1010 1]

theorem C74_negative_size : failure (encode anyCell ⟨2, 0⟩ (negSize (-200))) = some .cellOverflow ∧ (Val.varint 32 (-200)).exact.bits < (Val.varint 32 (-200)).stored.bits ∧
    failure (encode anyCell ⟨2, 0⟩ (negSize (-100))) = none ∧ failure (encode anyCell ⟨1, 0⟩ (negSize (-200))) = none ∧
    failure (encode anyCell ⟨2, 2⟩ (negSize (-200))) = none := by
  decide +kernel

/-! ### Arrays whose length is not that of the dictionary -/

/-- An array of `n` elements, says the cell; its dictionary has one element. -/
def shortArray (n : Nat) : Cell := .mk false (natBits 32 n ++ [true]) ((writeElems anyCell ⟨2, 0⟩ true (.cons (.uint 8 7) .nil) 0 none).toOption.join).toList

/-- The length written before the dictionary is an upper bound only: the rest is missing without an error. -/
theorem C74_short_array : (decode ⟨2, 0⟩ false (.array (.uint 8)) (shortArray 3)).toOption.map Val.print = some (Val.array (.uint 8) (.cons (.uint 8 7) .nil)).print ∧
    (decode ⟨2, 0⟩ false (.array (.uint 8)) (shortArray 1)).toOption.map Val.print = some (Val.array (.uint 8) (.cons (.uint 8 7) .nil)).print ∧
    (decode ⟨2, 0⟩ false (.array (.uint 8)) (shortArray 0)).toOption.map Val.print = some (Val.array (.uint 8) .nil).print := by
  decide +kernel

end Abi
end Verif
