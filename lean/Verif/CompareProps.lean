import Verif.Compare
import Verif.AbiSameRead
import Verif.CellInj
import Mathlib.Data.List.Perm.Subperm
/-
C98: what it means that two builders, two ABI types, two ABI values or two maps of them are equal, that they are ordered, and that they have the same hash.
-/
set_option linter.unusedVariables false
namespace Verif.Compare
open Abi

variable {ρ : Type}

/-! ### Data builders -/

/-- Two data builders are equal, and neither is before the other, exactly if the same bits were stored in them. -/
theorem C98_data_equal {a b : DataBuilder} (ha : a.WF) (hb : b.WF) :
    (dataEq a b = true ↔ a.bits = b.bits) ∧ (dataCmp a b = .eq ↔ a.bits = b.bits) := by
  have e1 : dataEq a b = true ↔ a.bits = b.bits := by
    constructor
    · intro h
      simp [dataEq] at h
      cases a; cases b; simp_all
    · intro h
      cases DataBuilder.WF.ext ha hb h
      simp [dataEq]
  refine ⟨e1, ?_⟩
  rw [← e1]
  simp only [dataCmp, then_match, Ordering.then_eq_eq, Nat.compare_eq_eq, bytesCmp_eq, dataEq, Bool.and_eq_true, beq_iff_eq]

/-- Data builders are ordered by the number of stored bits, and then by the bits, the first one first. -/
theorem C98_data_order {a b : DataBuilder} (ha : a.WF) (hb : b.WF) :
    dataCmp a b = (compare a.bits.length b.bits.length).then (lexBits a.bits b.bits) := by
  rw [dataCmp, then_match, DataBuilder.bits_length, DataBuilder.bits_length]
  by_cases h : a.bitLen = b.bitLen
  · rw [buffer_cmp ha hb h]
  · have : compare a.bitLen b.bitLen ≠ .eq := fun e => h (Nat.compare_eq_eq.mp e)
    cases e : compare a.bitLen b.bitLen <;> simp_all

/-! ### Builders -/

/-- Two builders are equal exactly if they are both ordinary or both exotic, hold the same bits and refer to cells with the same hashes in the same order. -/
theorem C98_builder_equal (hash : ρ → List Byte) {a b : CellB ρ} (ha : a.WF) (hb : b.WF) :
    builderEq hash a b = true ↔ a.exotic = b.exotic ∧ a.inner.bits = b.inner.bits ∧ a.refs.map hash = b.refs.map hash := by
  simp [builderEq, (C98_data_equal ha.inner hb.inner).1]

/-- The comparison of builders is an order: it can be read from either side, and it is transitive. -/
theorem C98_builder_order (hash : ρ → List Byte) (a b c : CellB ρ) :
    builderCmp hash b a = (builderCmp hash a b).swap ∧
    (builderCmp hash a b ≠ .gt → builderCmp hash b c ≠ .gt → builderCmp hash a c ≠ .gt) ∧
    (builderCmp hash a b = .lt → builderCmp hash b c ≠ .gt → builderCmp hash a c = .lt) := by
  have := builderCmp_trans hash
  refine ⟨Std.OrientedCmp.eq_swap (cmp := builderCmp hash), fun h1 h2 => ?_, fun h1 h2 => ?_⟩
  · have l1 : (builderCmp hash a b).isLE = true := by cases e : builderCmp hash a b <;> simp_all
    have l2 : (builderCmp hash b c).isLE = true := by cases e : builderCmp hash b c <;> simp_all
    have := Std.TransCmp.isLE_trans l1 l2
    intro e
    rw [e] at this
    cases this
  · have l2 : (builderCmp hash b c).isLE = true := by cases e : builderCmp hash b c <;> simp_all
    exact Std.TransCmp.lt_of_lt_of_isLE h1 l2

/-- What the order of builders looks at: neither of two builders is before the other exactly if they hold the same bits and refer to cells with the same hashes. -/
theorem C98_builder_neither (hash : ρ → List Byte) {a b : CellB ρ} (ha : a.WF) (hb : b.WF) :
    builderCmp hash a b = .eq ↔ a.inner.bits = b.inner.bits ∧ a.refs.map hash = b.refs.map hash := by
  rw [← (C98_data_equal ha.inner hb.inner).1]
  simp only [builderCmp, then_match, Ordering.then_eq_eq, Nat.compare_eq_eq, bytesCmp_eq, dataEq, Bool.and_eq_true, beq_iff_eq]
  constructor
  · rintro ⟨h1, h2, h3, h4⟩
    rw [refsCmp_lex hash h2] at h4
    refine ⟨⟨h1, h3⟩, ?_⟩
    have : Std.LawfulEqCmp bytesCmp := { eq_of_compare := fun h => bytesCmp_eq.mp h }
    exact Std.LawfulEqCmp.eq_of_compare (cmp := List.compareLex bytesCmp) h4
  · rintro ⟨⟨h1, h3⟩, h4⟩
    have h2 : a.refs.length = b.refs.length := by simpa using congrArg List.length h4
    refine ⟨h1, h2, h3, ?_⟩
    rw [refsCmp_lex hash h2, h4]
    exact Std.ReflCmp.compare_self (cmp := List.compareLex bytesCmp)

/-- The statement one would like: neither of two builders is before the other exactly if they are equal. -/
def OrderAgrees (hash : ρ → List Byte) : Prop := ∀ a b : CellB ρ, a.WF → b.WF → (builderCmp hash a b = .eq ↔ builderEq hash a b = true)

/-- It holds of two builders that are both ordinary or both exotic. -/
theorem C98_order_agrees_partial (hash : ρ → List Byte) {a b : CellB ρ} (ha : a.WF) (hb : b.WF) (h : a.exotic = b.exotic) :
    builderCmp hash a b = .eq ↔ builderEq hash a b = true := by
  rw [C98_builder_neither hash ha hb, C98_builder_equal hash ha hb]
  simp [h]

/-- It does not hold in general: the order does not look at the exotic flag, so an ordinary and an exotic builder with the same content are not equal but neither is before the other,
and one of them replaces the other in an ordered set. -/
theorem C98_order_disagrees (hash : ρ → List Byte) : ¬ OrderAgrees hash := by
  intro h
  have := (h CellB.new { CellB.new with exotic := true } CellB.wf_new ⟨DataBuilder.wf_new, by simp [CellB.new]⟩).mp
  have e : builderCmp hash (CellB.new : CellB ρ) { CellB.new with exotic := true } = .eq :=
    (C98_builder_neither hash CellB.wf_new ⟨DataBuilder.wf_new, by simp [CellB.new]⟩).mpr ⟨rfl, rfl⟩
  have := this e
  simp [builderEq, CellB.new] at this

/-! ### ABI types -/

/-- Two types that are equal without names give the same input to any hash function, and types that are not equal give different inputs;
what is hashed after a type (for instance the next item of a tuple) cannot be taken for a part of it. -/
theorem C98_type_hash {a b : Ty} {r s : List Nat} : a.words ++ r = b.words ++ s ↔ a.same b = true ∧ r = s := by
  constructor
  · exact words_same a b r s
  · rintro ⟨h, e⟩
    rw [same_bare] at h
    rw [← words_bare a, ← words_bare b, h, e]

/-! ### ABI values -/

/-- Two values are equal without names exactly if they become the same value when all names are removed, in the value and in the types inside it. -/
theorem C98_value_equal (v w : Abi.Val) : v.same w = true ↔ v.bare = w.bare := Abi.Val.same_bare v w

/-- Equality without names is an equivalence. -/
theorem C98_value_equivalence (u v w : Abi.Val) : v.same v = true ∧ (v.same w = w.same v) ∧ (u.same v = true → v.same w = true → u.same w = true) := by
  refine ⟨(Abi.Val.same_bare v v).mpr rfl, ?_, fun h1 h2 => ?_⟩
  · rw [Bool.eq_iff_iff, Abi.Val.same_bare, Abi.Val.same_bare]
    exact eq_comm
  · rw [Abi.Val.same_bare] at *
    rw [h1, h2]

/-- Values that are equal without names have types that are equal without names. -/
theorem C98_value_type {v w : Abi.Val} (h : v.same w = true) : v.type.same w.type = true := by
  rw [same_bare, ← Abi.Val.type_bare, ← Abi.Val.type_bare, (Abi.Val.same_bare v w).mp h]

/-- Values that are equal without names are encoded as the same cell, or are refused with the same error, by every version. -/
theorem C98_value_cell {v w : Abi.Val} (h : v.same w = true) (acc : Cell → Bool) (ver : Ver) : encode acc ver v = encode acc ver w := by
  rw [← encode_bare acc ver v, ← encode_bare acc ver w, (Abi.Val.same_bare v w).mp h]

/-- Reading a cell by either of two types that are equal without names gives values that are equal without names, or the same error. -/
theorem C98_read {a b : Ty} (h : a.same b = true) (ver : Ver) (part : Bool) (c : Cell) :
    match decode ver part a c, decode ver part b c with
    | .ok v, .ok w => v.same w = true
    | .error e, .error f => e = f
    | _, _ => False := by
  have e := decode_bare ver part a c
  rw [(same_bare a b).mp h, decode_bare] at e
  cases f : decode ver part a c <;> cases g : decode ver part b c <;> rw [f, g] at e
  · injection e with e; exact e.symm
  · cases e
  · cases e
  · injection e with e; exact (Abi.Val.same_bare _ _).mpr e.symm

/-! ### Maps -/

/-- Two hash maps are equal exactly if they have the same keys and under every key equal values; the order of their entries does not matter. -/
theorem C98_map_equal {K V : Type} [DecidableEq K] (same : V → V → Bool) {a b : List (K × V)} (ha : (a.map (·.1)).Nodup) (hb : (b.map (·.1)).Nodup) :
    mapEq same a b = true ↔ ∀ k, match a.lookup k, b.lookup k with
      | some v, some w => same v w = true
      | none, none => True
      | _, _ => False := by
  simp only [mapEq, Bool.and_eq_true, beq_iff_eq, List.all_eq_true]
  constructor
  · rintro ⟨hl, h⟩ k
    have hsub : ∀ k v, a.lookup k = some v → ∃ w, b.lookup k = some w ∧ same v w = true := by
      intro k v e
      have := h _ (lookup_some_mem e)
      cases f : b.lookup k with
      | none => simp [f] at this
      | some w => exact ⟨w, rfl, by simpa [f] using this⟩
    have hp : (a.map (·.1)).Perm (b.map (·.1)) := by
      refine (ha.subperm ?_).perm_of_length_le (by simp [hl])
      intro k hk
      obtain ⟨⟨j, v⟩, hm, rfl⟩ := List.mem_map.mp hk
      obtain ⟨w, hw, _⟩ := hsub _ _ (lookup_of_mem ha hm)
      exact List.mem_map.mpr ⟨_, lookup_some_mem hw, rfl⟩
    cases e : a.lookup k with
    | some v =>
      obtain ⟨w, hw, hs⟩ := hsub k v e
      simp [hw, hs]
    | none =>
      cases f : b.lookup k with
      | none => trivial
      | some w =>
        have hk : k ∈ b.map (·.1) := List.mem_map.mpr ⟨_, lookup_some_mem f, rfl⟩
        obtain ⟨⟨j, v⟩, hm, rfl⟩ := List.mem_map.mp (hp.mem_iff.mpr hk)
        rw [lookup_of_mem ha hm] at e
        cases e
  · intro h
    have hk : ∀ k, k ∈ a.map (·.1) ↔ k ∈ b.map (·.1) := by
      intro k
      have := h k
      constructor
      · intro hj
        obtain ⟨⟨j, v⟩, hm, rfl⟩ := List.mem_map.mp hj
        rw [lookup_of_mem ha hm] at this
        cases f : b.lookup j with
        | none => simp [f] at this
        | some w => exact List.mem_map.mpr ⟨_, lookup_some_mem f, rfl⟩
      · intro hj
        obtain ⟨⟨j, v⟩, hm, rfl⟩ := List.mem_map.mp hj
        rw [lookup_of_mem hb hm] at this
        cases f : a.lookup j with
        | none => simp [f] at this
        | some w => exact List.mem_map.mpr ⟨_, lookup_some_mem f, rfl⟩
    constructor
    · have l1 := (ha.subperm (fun k h => (hk k).mp h)).length_le
      have l2 := (hb.subperm (fun k h => (hk k).mpr h)).length_le
      simp at l1 l2
      omega
    · rintro ⟨k, v⟩ hm
      have := h k
      rw [lookup_of_mem ha hm] at this
      cases f : b.lookup k with
      | none => simp [f] at this
      | some w => simpa [f] using this

/-! ### Examples -/

/-- A builder with the bits `bs`, as stored one by one. -/
private def holding (bs : Bits) : DataBuilder := bs.foldl (fun b x => (b.storeBit x).2) DataBuilder.new

example : dataCmp (holding [true]) (holding [false, false]) = .lt := by decide +kernel
example : dataCmp (holding [true, false]) (holding [false, true]) = .gt := by decide +kernel
example : dataCmp (holding [true, false]) (holding [true, false]) = .eq := by decide +kernel

private def person (a b : String) : Abi.Val := .tuple (.cons a (.uint 8 7) (.cons b (.array (.tuple (.cons a .bool .nil)) (.cons (.tuple (.cons b (.bool true) .nil)) .nil)) .nil))
example : (person "x" "y").same (person "z" "") = true := by decide +kernel
example : (person "x" "y").same (.tuple (.cons "x" (.uint 8 7) .nil)) = false := by decide +kernel
example : (match encode (fun _ => true) ⟨2, 2⟩ (person "x" "y") with | .ok c => c.refs.length == 1 | .error _ => false) = true := by decide +kernel
example : (match encode (fun _ => true) ⟨2, 2⟩ (person "x" "y") with
    | .ok c => (match decode ⟨2, 2⟩ false (person "a" "b").type c with | .ok v => v.same (person "x" "y") | .error _ => false)
    | .error _ => false) = true := by decide +kernel
example : (person "x" "y").type.words = [11, 2, 0, 8, 12, 11, 1, 4] := by decide +kernel
example : mapEq (fun a b : Nat => a == b) [(1, 2), (3, 4)] [(3, 4), (1, 2)] = true := by decide +kernel
example : mapEq (fun a b : Nat => a == b) [(1, 2), (3, 4)] [(3, 4), (5, 2)] = false := by decide +kernel

end Verif.Compare
