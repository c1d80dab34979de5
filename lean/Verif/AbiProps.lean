import Verif.AbiRound
/-!
# C74: ABI values come back

A value serialized by `make_cell` is read back by `load`, for every version of the ABI and every value that meets `Good` and `Regular` (`AbiGood.lean`). The
full statement, without these conditions, is false: the witnesses at the end are values of the library that the serializer accepts (or should accept) and
that are lost, changed or refused.
-/
set_option linter.unusedVariables false
set_option linter.unusedSimpArgs false
namespace Verif
namespace Abi

/-- The value of the full statement: whatever is serialized is read back as the same value. -/
def ComesBack (acc : Cell → Bool) (ver : Ver) (v : Val) : Prop :=
  ∀ c part, encode acc ver v = .ok c → decode ver part v.type c = .ok v

/-- **C74.** Whatever the serializer makes of a value, spread over however many cells, is read back as this value, also if data is allowed to remain.
Partial: the serializer can do better than `Good` and `Regular` say only by accident, see the witnesses below. -/
theorem C74_round_partial (acc : Cell → Bool) (ver : Ver) (hv : 1 ≤ ver.major) (v : Val) (hg : Good ver v) (hr : Regular ver v) : ComesBack acc ver v := by
  intro c part h
  unfold encode at h
  cases hb : child acc (v.size ver) (write acc ver v) with
  | error x => rw [hb] at h; cases h
  | ok b =>
    rw [hb] at h
    obtain ⟨T, g, G, hf, hp, he, _⟩ := child_spec hv (written hv v hg) hr hb
    have := build_ok h
    subst this
    exact read_own hf hp he part

/-- The empty tuple, on its own, comes back. -/
theorem C74_unit (acc : Cell → Bool) (ver : Ver) (hv : 1 ≤ ver.major) : ComesBack acc ver (.tuple .nil) := by
  intro c part h
  have h' : build acc .new = .ok c := by
    unfold encode child at h
    simp only [write, writeItems] at h
    exact h
  rw [build_ok h']
  show (checkRemaining part _ >>= fun _ => _) = _
  cases part <;> rfl

/-- **C74.** Different values of one type have different serialized forms. -/
theorem C74_injective_partial (acc acc' : Cell → Bool) (ver : Ver) (hv : 1 ≤ ver.major) (v w : Val) (hg : Good ver v) (hr : Regular ver v) (hg' : Good ver w)
    (hr' : Regular ver w) (ht : v.type = w.type) (c : Cell) (h : encode acc ver v = .ok c) (h' : encode acc' ver w = .ok c) : v = w := by
  have h1 := C74_round_partial acc ver hv v hg hr c true h
  have h2 := C74_round_partial acc' ver hv w hg' hr' c true h'
  rw [ht, h2] at h1
  injection h1 with h1
  exact h1.symm

/-- **C74.** The sizes: a value of a type that leaves a reference free takes one cell; it has as many references as `compute_exact_size` says, at least the bits
that it says, and at most the size of the type. -/
theorem C74_size (acc : Cell → Bool) (ver : Ver) (hv : 1 ≤ ver.major) (v : Val) (hg : Good ver v) (hb : v.type.max.bits + v.type.fixed ≤ 1023)
    (hm : v.type.max.refs ≤ 3) (c : Cell) (h : encode acc ver v = .ok c) :
    c.bits.length ≤ v.type.max.bits ∧ c.refs.length ≤ v.type.max.refs ∧ v.exact.bits ≤ c.bits.length ∧ v.exact.refs = c.refs.length := by
  unfold encode at h
  cases hx : child acc (v.size ver) (write acc ver v) with
  | error x => rw [hx] at h; cases h
  | ok b =>
    rw [hx] at h
    obtain ⟨T, g, G, hf, hp, he, hG⟩ := child_spec hv (written hv v hg) (Or.inr (Or.inr ⟨hb, hm⟩)) hx
    have hG := hG hb hm
    subst hG
    have hgT : g = T.map (·.e) := by simpa using he
    subst hgT
    have hbc : b.contents = flatE (T.map (·.e)) := hp.contents
    have h1 : c.bits.length = eBits T := by rw [← flatE_bits, ← hbc, build_ok h]; rfl
    have h2 : c.refs.length = eRefs T := by rw [← flatE_refs, ← hbc, build_ok h]; rfl
    have s1 := hf.sizes.maxBits
    have s2 := hf.sizes.maxRefs
    have s3 := hf.sizes.exactBits
    have s4 := hf.sizes.exactRefs
    omega

/-! ### Examples -/

def exCell : Cell := .mk false [true] []

/-- A tuple over several cells: integers, five references, a map, an array of pairs in references, an optional. -/
def exVal : Val := .tuple (.cons "a" (.uint 800 3) (.cons "b" (.int 800 (-4)) (.cons "c" (.cell exCell) (.cons "d" (.bytes [1, 2, 3]) (.cons "e" (.string [72, 105])
  (.cons "f" (.ref (.varint 4 (-128))) (.cons "g" (.cell exCell) (.cons "h" (.map (.uint 8) .bool (.cons (.uint 8 1) (.bool true) (.cons (.uint 8 5) (.bool false) .nil)))
  (.cons "i" (.array (.uint 1000) (.cons (.uint 1000 7) (.cons (.uint 1000 8) .nil))) (.cons "j" (.present (.uint 100) (.uint 100 5)) .nil))))))))))

/-- Number of cells of a tree. -/
def cellCount : Nat → Cell → Nat
  | 0, _ => 0
  | n + 1, .mk _ _ refs => 1 + (refs.map (cellCount n)).sum

theorem exVal_good (ver : Ver) : Good ver exVal ∧ Regular ver exVal := by
  refine ⟨?_, Or.inr (Or.inl rfl)⟩
  simp only [exVal, Good, GoodItems, GoodElems, GoodEntries, Inside, Regular, and_true, true_and]
  refine ⟨by simp, by decide +kernel, by decide +kernel, by decide +kernel, ?_, ?_, ?_, ?_⟩
  · refine ⟨⟨by decide, fun _ => by decide, by decide +kernel⟩, Or.inr (Or.inl rfl)⟩
  · refine ⟨by decide, fun h => absurd h (by decide +kernel), ⟨rfl, ⟨by decide, by decide⟩, rfl, Or.inr (Or.inl rfl), rfl, ⟨by decide, by decide⟩, rfl, Or.inr (Or.inl rfl)⟩, ?_⟩
    show List.Pairwise _ [PVal.uint 8 1, PVal.uint 8 5]
    simp [PVal.bits, natOfBits_natBits]
  · refine ⟨by decide, fun _ _ => rfl, ⟨rfl, ⟨by decide, by decide, ?_⟩, Or.inr (Or.inl rfl), rfl, ⟨by decide, by decide, ?_⟩, Or.inr (Or.inl rfl)⟩⟩
    · exact Nat.lt_of_lt_of_le (by decide : 7 < 2 ^ 3) (Nat.pow_le_pow_right (by decide) (by decide))
    · exact Nat.lt_of_lt_of_le (by decide : 8 < 2 ^ 4) (Nat.pow_le_pow_right (by decide) (by decide))
  · refine ⟨rfl, ⟨by decide, by decide, by decide +kernel⟩, ?_⟩
    rw [if_pos (by decide +kernel)]
    decide +kernel

def anyCell : Cell → Bool := fun _ => true

/-- It is serialized, as 17 cells in version 1 and as 16 cells later. -/
example : ([⟨1, 0⟩, ⟨2, 0⟩, ⟨2, 3⟩] : List Ver).map (fun ver => (encode anyCell ver exVal).toOption.map (cellCount 20)) = [some 17, some 16, some 16] := by decide +kernel

example (ver : Ver) (hv : 1 ≤ ver.major) : ComesBack anyCell ver exVal := C74_round_partial anyCell ver hv exVal (exVal_good ver).1 (exVal_good ver).2

/-- The hypotheses of `C74_size` are met by an array next to an optional. -/
example : Good ⟨2, 2⟩ (.tuple (.cons "a" (.array .bool .nil) (.cons "b" (.absent (.uint 100)) .nil))) ∧
    (Val.tuple (.cons "a" (.array .bool .nil) (.cons "b" (.absent (.uint 100)) .nil))).type.max = ⟨134, 1⟩ := by
  refine ⟨?_, by decide +kernel⟩
  simp only [Good, GoodItems, GoodElems, Inside, and_true]
  exact ⟨by simp, by decide, fun h => absurd h (by decide +kernel)⟩

/-! ### Values that do not come back -/

mutual
/-- A fingerprint of a value: equal values have equal fingerprints. -/
def Val.print : Val → List Int
  | .uint _ v => [0, v]
  | .int _ x => [1, x]
  | .varuint _ v => [2, v]
  | .varint _ x => [3, x]
  | .bool b => [4, if b then 1 else 0]
  | .cell c => [5, c.bits.length, c.refs.length]
  | .tuple l => [6] ++ l.print
  | .array _ l => [7, l.length]
  | .fixedArray _ l => [8, l.length]
  | .map _ _ es => [9, if es.isEmpty then 0 else 1]
  | _ => []
def Items.print : Items → List Int
  | .nil => []
  | .cons _ v r => v.print ++ r.print
end

/-- Serialized and read back. -/
def trip (ver : Ver) (v : Val) : Except Err Val := encode anyCell ver v >>= decode ver false v.type

def tup : List Val → Val := fun l => .tuple (l.foldr (fun v r => .cons "" v r) .nil)

theorem not_back {ver : Ver} {v : Val} (h1 : (encode anyCell ver v).toOption.isSome = true) (h2 : (trip ver v).toOption.map Val.print ≠ some v.print) :
    ¬ ComesBack anyCell ver v := by
  intro h
  cases hc : encode anyCell ver v with
  | error e => rw [hc] at h1; cases h1
  | ok c =>
    apply h2
    unfold trip
    rw [hc]
    show (decode ver false v.type c).toOption.map Val.print = _
    rw [h c false hc]
    rfl

/-- `write_varint` leaves out the sign of numbers that are not negative: 128 comes back as -128, in all versions. -/
theorem C74_varint_sign (ver : Ver) (h : ver ∈ ([⟨1, 0⟩, ⟨2, 0⟩, ⟨2, 1⟩, ⟨2, 2⟩, ⟨2, 3⟩] : List Ver)) :
    ¬ ComesBack anyCell ver (.varint 4 128) ∧ (trip ver (.varint 4 128)).toOption.map Val.print = some (Val.varint 4 (-128)).print := by
  have h1 : ∀ ver ∈ ([⟨1, 0⟩, ⟨2, 0⟩, ⟨2, 1⟩, ⟨2, 2⟩, ⟨2, 3⟩] : List Ver), (encode anyCell ver (.varint 4 128)).toOption.isSome = true ∧
      (trip ver (.varint 4 128)).toOption.map Val.print = some (Val.varint 4 (-128)).print := by decide +kernel
  obtain ⟨h2, h3⟩ := h1 ver h
  refine ⟨not_back h2 ?_, h3⟩
  rw [h3]
  decide

/-- Two empty maps before three cells: the serializer asks for references that its total does not have. In version 1 the result cannot be read, in 2.0 and 2.1 it
is read as another value; from 2.2 on it comes back. -/
def mapsAndCells : Val := tup [.map (.uint 32) .bool .nil, .map (.uint 32) .bool .nil, .cell exCell, .cell exCell, .cell exCell]

theorem C74_empty_maps : ¬ ComesBack anyCell ⟨1, 0⟩ mapsAndCells ∧ ¬ ComesBack anyCell ⟨2, 0⟩ mapsAndCells ∧ ¬ ComesBack anyCell ⟨2, 1⟩ mapsAndCells ∧
    (trip ⟨1, 0⟩ mapsAndCells).toOption.isSome = false ∧ (trip ⟨2, 0⟩ mapsAndCells).toOption.isSome = true ∧ (trip ⟨2, 2⟩ mapsAndCells).toOption.map Val.print = some mapsAndCells.print := by
  refine ⟨not_back (by decide +kernel) (by decide +kernel), not_back (by decide +kernel) (by decide +kernel), not_back (by decide +kernel) (by decide +kernel), ?_⟩
  decide +kernel

/-- In version 1 already one empty map before three cells is read as another value. -/
theorem C74_empty_map : ¬ ComesBack anyCell ⟨1, 0⟩ (tup [.map (.uint 32) .bool .nil, .cell exCell, .cell exCell, .cell exCell]) ∧
    (trip ⟨1, 0⟩ (tup [.map (.uint 32) .bool .nil, .cell exCell, .cell exCell, .cell exCell])).toOption.isSome = true := by
  refine ⟨not_back (by decide +kernel) (by decide +kernel), by decide +kernel⟩

/-- In version 1 an element that is too large for a leaf and begins with a reference cannot be read. -/
def bigElement : Val := .array (tup [.cell exCell, .uint 1000 2]).type (.cons (tup [.cell exCell, .uint 1000 2]) .nil)

theorem C74_big_element : ¬ ComesBack anyCell ⟨1, 0⟩ bigElement ∧ (trip ⟨2, 0⟩ bigElement).toOption.map Val.print = some bigElement.print := by
  refine ⟨not_back (by decide +kernel) (by decide +kernel), by decide +kernel⟩

/-- An empty tuple after a cell makes the decoder follow the reference of the cell. -/
theorem C74_last_unit : ¬ ComesBack anyCell ⟨2, 0⟩ (tup [.cell exCell, tup []]) := not_back (by decide +kernel) (by decide +kernel)

/-- An optional whose type holds two fixed arrays: the value is spread over two cells although the type fits into one, and cannot be read. -/
def optFixed : Val :=
  tup [.present (tup [.fixedArray .bool .nil, .fixedArray .bool .nil, .uint 1020 3]).type (tup [.fixedArray .bool .nil, .fixedArray .bool .nil, .uint 1020 3]), .uint 3 4]

theorem C74_optional_fixed : ∀ ver ∈ ([⟨2, 0⟩, ⟨2, 2⟩] : List Ver), ¬ ComesBack anyCell ver optFixed := by
  intro ver h
  have h1 : ∀ ver ∈ ([⟨2, 0⟩, ⟨2, 2⟩] : List Ver), (encode anyCell ver optFixed).toOption.isSome = true ∧ (trip ver optFixed).toOption.map Val.print ≠ some optFixed.print := by
    decide +kernel
  exact not_back (h1 ver h).1 (h1 ver h).2

def failure {α : Type} : Except Err α → Option Err
  | .error e => some e
  | .ok _ => none

/-- Values that the serializer refuses: zero in `varuint1`; three cells, a fixed array and 1022 bits, which need a fifth reference; and, by a panic of debug
builds, a `varuint129` followed by anything. -/
theorem C74_refused : failure (encode anyCell ⟨2, 0⟩ (.varuint 1 0)) = some .intOverflow ∧
    failure (encode anyCell ⟨2, 0⟩ (tup [.cell exCell, .cell exCell, .cell exCell, .fixedArray .bool (.cons (.bool true) .nil), .uint 1022 1])) = some .cellOverflow ∧
    failure (encode anyCell ⟨2, 2⟩ (tup [.varuint 129 5, .uint 8 1])) = some .panic := by
  decide +kernel

end Abi
end Verif
