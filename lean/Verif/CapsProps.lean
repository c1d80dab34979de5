import Verif.CapsLemmas
/-!
# C78: sets of global capabilities

A set is what its members are: iterating, collecting, testing, counting and the human-readable form agree. With bits that name no capability set, counting and the human-readable
form do not: the witnesses are at the end.
-/
set_option linter.unusedVariables false
set_option linter.unusedSimpArgs false
namespace Verif
namespace Caps

/-- Every bit that is set is a capability. -/
def Known (s : Caps) : Prop := ∀ i, s.raw.testBit i = true → ∃ c : Cap, c.bit = i

theorem Known.lt {s : Caps} (h : s.Known) : s.raw < 2 ^ 64 := by
  refine Nat.lt_pow_two_of_testBit _ fun i hi => ?_
  cases hb : s.raw.testBit i with
  | false => rfl
  | true =>
    obtain ⟨c, e⟩ := h i hb
    have := bit_lt c
    omega

/-- **C78.** The iterator yields exactly the capabilities of the set, each once, from the lowest bit to the highest, and then ends; bits without a capability are passed over. -/
theorem C78_iter (s : Caps) (h : s.raw < 2 ^ 64) : s.items = Cap.all.filter s.contains := by
  have h1 : s.items = (bitsOf s.raw).filterMap Cap.fromBit := items_spec 65 s.raw h (by have := bitsOf_length s.raw; omega)
  rw [h1]
  unfold bitsOf
  rw [filter_known, range_known]
  exact List.filter_congr fun c _ => (contains_bit s c).symm

/-- **C78.** Adding a capability adds it and nothing else. -/
theorem C78_add (s : Caps) (c c' : Cap) : (s.add c).contains c' = (s.contains c' || decide (c = c')) := by
  rw [contains_bit, contains_bit, add_bit]
  congr 1
  by_cases h : c = c'
  · subst h; simp
  · have : c.bit ≠ c'.bit := fun e => h (bit_inj e)
    simp [h, this]

/-- **C78.** A collected set has the collected members, and no other bits; in whatever order and however often they come. -/
theorem C78_collect (l : List Cap) : (∀ c, (collect l).contains c = true ↔ c ∈ l) ∧ (collect l).Known := by
  constructor
  · intro c
    rw [contains_bit]
    unfold collect
    rw [fold_bit, Nat.zero_testBit, Bool.false_or, List.any_eq_true]
    constructor
    · rintro ⟨x, hx, e⟩
      rw [bit_inj (of_decide_eq_true e)] at hx
      exact hx
    · exact fun h => ⟨c, h, by simp⟩
  · intro i hi
    unfold collect at hi
    rw [fold_bit, Nat.zero_testBit, Bool.false_or, List.any_eq_true] at hi
    obtain ⟨x, _, e⟩ := hi
    exact ⟨x, of_decide_eq_true e⟩

/-- **C78.** Two sets without unknown bits and with the same members are the same number. -/
theorem C78_ext (s t : Caps) (hs : s.Known) (ht : t.Known) (h : ∀ c, s.contains c = t.contains c) : s = t := by
  have key : ∀ i, s.raw.testBit i = t.raw.testBit i := by
    intro i
    by_cases hc : ∃ c : Cap, c.bit = i
    · obtain ⟨c, rfl⟩ := hc
      rw [← contains_bit, ← contains_bit, h]
    · have h1 : s.raw.testBit i = false := by
        cases hb : s.raw.testBit i with
        | false => rfl
        | true => exact absurd (hs i hb) hc
      have h2 : t.raw.testBit i = false := by
        cases hb : t.raw.testBit i with
        | false => rfl
        | true => exact absurd (ht i hb) hc
      rw [h1, h2]
  have := Nat.eq_of_testBit_eq key
  cases s; cases t
  exact congrArg Caps.mk this

/-- **C78.** Collecting the items of a set gives its known part: the set itself exactly if no unknown bit is set. -/
theorem C78_collect_items (s : Caps) (h : s.raw < 2 ^ 64) : (∀ c, (collect s.items).contains c = s.contains c) ∧ (collect s.items = s ↔ s.Known) := by
  have h1 : ∀ c, (collect s.items).contains c = s.contains c := by
    intro c
    have := (C78_collect s.items).1 c
    rw [C78_iter s h, List.mem_filter] at this
    rw [C78_iter s h]
    rw [Bool.eq_iff_iff]
    exact this.trans ⟨fun x => x.2, fun x => ⟨mem_all c, x⟩⟩
  refine ⟨h1, fun e => e ▸ (C78_collect s.items).2, fun hk => C78_ext _ _ (C78_collect s.items).2 hk h1⟩

/-- **C78.** Names of capabilities: they come back, and only names are accepted. -/
theorem C78_names (c : Cap) (t : String) : Cap.parse t = some c ↔ t = c.text := by
  constructor
  · intro h
    unfold Cap.parse at h
    simpa using List.find?_some h
  · rintro rfl
    cases c <;> decide

/-- **C78.** The human-readable form is accepted and gives the known part of the set: it comes back unchanged exactly if no unknown bit is set. -/
theorem C78_human_partial (s : Caps) (h : s.raw < 2 ^ 64) : ofTexts s.toTexts ⟨0⟩ = some (collect s.items) ∧ (ofTexts s.toTexts ⟨0⟩ = some s ↔ s.Known) := by
  have e : ofTexts s.toTexts ⟨0⟩ = some (collect s.items) := ofTexts_map s.items ⟨0⟩
  refine ⟨e, ?_⟩
  rw [e, ← (C78_collect_items s h).2]
  exact ⟨fun x => Option.some.inj x, fun x => by rw [x]⟩

theorem filterMap_length : ∀ l : List Nat, (l.filterMap Cap.fromBit).length ≤ l.length ∧ ((l.filterMap Cap.fromBit).length = l.length ↔ ∀ i ∈ l, ∃ c : Cap, c.bit = i)
  | [] => by simp
  | i :: l => by
    obtain ⟨h1, h2⟩ := filterMap_length l
    cases hf : Cap.fromBit i with
    | none =>
      rw [List.filterMap_cons_none hf]
      refine ⟨by simp; omega, fun e => by simp at e; omega, fun e => ?_⟩
      obtain ⟨c, hc⟩ := e i List.mem_cons_self
      rw [← hc, bit_fromBit] at hf
      cases hf
    | some c =>
      rw [List.filterMap_cons_some hf]
      refine ⟨by simp; omega, fun e => ?_, fun e => ?_⟩
      · have := h2.mp (by simpa using e)
        intro j hj
        rcases List.mem_cons.mp hj with rfl | hj
        · exact ⟨c, fromBit_bit hf⟩
        · exact this j hj
      · have := h2.mpr fun j hj => e j (List.mem_cons_of_mem _ hj)
        simp [this]

/-- **C78.** The length (and the size hint of the iterator) is never too small, and is the number of items exactly if no unknown bit is set; a set without bits is empty. -/
theorem C78_len_partial (s : Caps) (h : s.raw < 2 ^ 64) : s.items.length ≤ s.len ∧ (s.items.length = s.len ↔ s.Known) ∧ (s.isEmpty = true ↔ s.len = 0) := by
  have h1 : s.items = (bitsOf s.raw).filterMap Cap.fromBit := items_spec 65 s.raw h (by have := bitsOf_length s.raw; omega)
  have h2 : s.len = (bitsOf s.raw).length := rfl
  have hb : ∀ i, s.raw.testBit i = true → i ∈ bitsOf s.raw := fun i hi => by
    unfold bitsOf
    rw [List.mem_filter, List.mem_range]
    refine ⟨?_, hi⟩
    by_cases hlt : i < 64
    · exact hlt
    · have : s.raw < 2 ^ i := Nat.lt_of_lt_of_le h (Nat.pow_le_pow_right (by decide) (by omega))
      rw [Nat.testBit_lt_two_pow this] at hi
      cases hi
  obtain ⟨a, b⟩ := filterMap_length (bitsOf s.raw)
  rw [h1, h2]
  refine ⟨a, b.trans ⟨fun k i hi => k i (hb i hi), fun k i hi => k i (List.mem_filter.mp hi).2⟩, ?_, ?_⟩
  · intro e
    have : s.raw = 0 := by simpa [isEmpty] using e
    rw [this, bitsOf_zero]
    rfl
  · intro e
    have e := List.length_eq_zero_iff.mp e
    have : s.raw = 0 := by
      apply Nat.eq_of_testBit_eq
      intro i
      rw [Nat.zero_testBit]
      cases hi : s.raw.testBit i with
      | false => rfl
      | true =>
        have := hb i hi
        rw [e] at this
        cases this
    simp [isEmpty, this]

/-! ### Examples and what fails -/

/-- Three capabilities; one of them twice. -/
example : (collect [.myCode, .ihrEnabled, .myCode, .fastFinality]).items = [.ihrEnabled, .myCode, .fastFinality] ∧ (collect [.myCode, .ihrEnabled]).len = 2 := by decide +kernel

/-- The bit 15 names no capability: the size hint promises an item that does not come, and the human-readable form loses the bit. -/
theorem C78_unknown_bit : (Caps.new 0x8001).len = 2 ∧ (Caps.new 0x8001).items = [.ihrEnabled] ∧ (ofTexts (Caps.new 0x8001).toTexts ⟨0⟩).map Caps.raw = some 1 := by decide +kernel

end Caps
end Verif
