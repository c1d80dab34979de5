import Verif.AbiConvLemmas
/-!
# ABI values that are values of a Rust type

Every ABI value of the type of a Rust type, with numbers in their ranges, comes from a value of that Rust type.
-/
set_option linter.unusedVariables false
set_option linter.unusedSimpArgs false
namespace Verif
namespace Abi

/-! ### Specification -/

/-- A key that is what its type says. -/
def PVal.Typed : PVal → Prop
  | .uint n v => v < 2 ^ n
  | .int n x => Big.FitsI n x
  | _ => True

mutual
/-- An ABI value that is what its type says: numbers are in range, strings are UTF-8, elements have the declared type, keys differ. -/
def Typed : Val → Prop
  | .uint n v => v < 2 ^ n
  | .int n x => Big.FitsI n x
  | .varuint n v => v < 256 ^ (n - 1)
  | .token v => v < 2 ^ 120
  | .string d => utf8 d = true
  | .tuple items => TypedItems items
  | .array t vs => TypedElems t vs
  | .fixedArray t vs => TypedElems t vs
  | .map k t es => es.keys.Nodup ∧ TypedEntries k t es
  | .present t v => v.type = t ∧ Typed v
  | .ref v => Typed v
  | _ => True
def TypedItems : Items → Prop
  | .nil => True
  | .cons _ v r => Typed v ∧ TypedItems r
def TypedElems (t : Ty) : Elems → Prop
  | .nil => True
  | .cons v r => (v.type = t ∧ Typed v) ∧ TypedElems t r
def TypedEntries (k : PTy) (t : Ty) : Entries → Prop
  | .nil => True
  | .cons key v r => (key.type = k ∧ key.Typed) ∧ (v.type = t ∧ Typed v) ∧ TypedEntries k t r
end

/-- Types that all values of their ABI type are converted to; an address may be of the other kind. -/
def RKey.total : RKey → Bool
  | .uint _ => true
  | .int _ => true
  | .hash => true
  | .bool => true
  | .intAddr => true
  | _ => false

mutual
def RTy.total : RTy → Bool
  | .plain k => k.total
  | .option t => t.total
  | .vec t => t.total
  | .array _ _ => false
  | .map k t => k.total && t.total
  | .tuple ts => ts.total
  | .struct ts => ts.total
  | .boxed t => t.total
  | _ => true
def RTys.total : RTys → Bool
  | .nil => true
  | .cons _ t r => t.total && r.total
end

/-- The Rust value of an ABI value. -/
def Comes (t : RTy) (v : Val) : Prop := ∃ x, t.from v = .ok x ∧ t.into x = v ∧ t.Wf x

/-! ### Plain values -/

theorem toU_back {n v : Nat} (h : v < 2 ^ n) : toU n v = .ok (BitVec.ofNat n v) ∧ (BitVec.ofNat n v).toNat = v :=
  ⟨if_pos h, by rw [BitVec.toNat_ofNat, Nat.mod_eq_of_lt h]⟩

theorem toI_back {n : Nat} {x : Int} (h0 : 0 < n) (h : Big.FitsI n x) : toI n x = .ok (BitVec.ofInt n x) ∧ (BitVec.ofInt n x).toInt = x := by
  refine ⟨if_pos h, ?_⟩
  obtain ⟨m, rfl⟩ : ∃ m, n = m + 1 := ⟨n - 1, by omega⟩
  have h1 := h.1
  have h2 := h.2
  rw [Int.pow_succ] at h1 h2
  exact BitVec.toInt_ofInt_eq_self (by omega) (by rw [Nat.add_sub_cancel]; omega) (by rw [Nat.add_sub_cancel]; omega)

theorem toHash_back {v : Nat} (h : v < 2 ^ 256) : Boc.beNat (toHash v) = v := (toHash_nat v).trans (Nat.mod_eq_of_lt h)

theorem W.pos (w : W) : 0 < w.bits := by cases w <;> decide

theorem hash_plain (v : Nat) : RKey.hash.fromPlain (.uint 256 v) = .ok (toHash v) := by
  show (if (256 : Nat) = 256 then Except.ok (toHash v) else Except.error Err.invalidData) = _
  rw [if_pos rfl]

theorem hash_full (v : Nat) : RKey.hash.from (.uint 256 v) = .ok (toHash v) := by
  show (if (256 : Nat) = 256 then Except.ok (toHash v) else Except.error Err.invalidData) = _
  rw [if_pos rfl]

theorem plain_comes (k : RKey) (ht : k.total = true) (v : PVal) (h : v.type = k.plainType) (hv : v.Typed) :
    ∃ x, k.fromPlain v = .ok x ∧ k.intoPlain x = v ∧ k.Wf x := by
  cases k with
  | uint w =>
    cases v <;> first | (cases h; done) | (injection h with h)
    subst h
    exact ⟨_, (if_pos rfl).trans (toU_back hv).1, congrArg (PVal.uint _) (toU_back hv).2, trivial⟩
  | int w =>
    cases v <;> first | (cases h; done) | (injection h with h)
    subst h
    exact ⟨_, (if_pos rfl).trans (toI_back w.pos hv).1, congrArg (PVal.int _) (toI_back w.pos hv).2, trivial⟩
  | hash =>
    cases v <;> first | (cases h; done) | (injection h with h)
    subst h
    exact ⟨_, hash_plain _, congrArg (PVal.uint _) (toHash_back hv), toHash_length _⟩
  | bool => cases v <;> first | (cases h; done) | exact ⟨_, rfl, rfl, trivial⟩
  | intAddr => cases v <;> first | (cases h; done) | exact ⟨_, rfl, rfl, trivial⟩
  | split => cases ht
  | uint9 => cases ht
  | uint12 => cases ht
  | uint15 => cases ht
  | stdAddr => cases ht
  | varAddr => cases ht

theorem key_comes (k : RKey) (ht : k.total = true) (v : Val) (h : v.type = k.type) (hv : Typed v) : Comes (.plain k) v := by
  cases k with
  | uint w =>
    cases v <;> first | (cases h; done) | (injection h with h)
    subst h
    exact ⟨_, (if_pos rfl).trans (toU_back hv).1, congrArg (Val.uint _) (toU_back hv).2, trivial⟩
  | int w =>
    cases v <;> first | (cases h; done) | (injection h with h)
    subst h
    exact ⟨_, (if_pos rfl).trans (toI_back w.pos hv).1, congrArg (Val.int _) (toI_back w.pos hv).2, trivial⟩
  | hash =>
    cases v <;> first | (cases h; done) | (injection h with h)
    subst h
    exact ⟨_, hash_full _, congrArg (Val.uint _) (toHash_back hv), toHash_length _⟩
  | bool => cases v <;> first | (cases h; done) | exact ⟨_, rfl, rfl, trivial⟩
  | intAddr => cases v <;> first | (cases h; done) | exact ⟨_, rfl, rfl, trivial⟩
  | split => cases ht
  | uint9 => cases ht
  | uint12 => cases ht
  | uint15 => cases ht
  | stdAddr => cases ht
  | varAddr => cases ht

/-! ### Lists -/

theorem elems_come {t : RTy} (ih : ∀ v, v.type = t.type → Typed v → Comes t v) : ∀ vs : Elems, TypedElems t.type vs →
    ∃ l : List t.El, vs.each t.from = .ok l ∧ Elems.ofList (l.map t.into) = vs ∧ ∀ x ∈ l, t.Wf x
  | .nil, _ => ⟨[], rfl, rfl, fun _ h => by cases h⟩
  | .cons v r, h => by
    obtain ⟨x, h1, h2, h3⟩ := ih v h.1.1 h.1.2
    obtain ⟨l, e1, e2, e3⟩ := elems_come ih r h.2
    refine ⟨x :: l, ?_, ?_, ?_⟩
    · rw [Elems.each, h1]
      show (r.each t.from >>= fun l => Except.ok (x :: l)) = _
      rw [e1]
      rfl
    · rw [List.map_cons, Elems.ofList, h2, e2]
    · intro y hy
      rcases List.mem_cons.mp hy with rfl | hy
      · exact h3
      · exact e3 y hy

theorem entries_come {k : RKey} {t : RTy} (hk : k.total = true) (ih : ∀ v, v.type = t.type → Typed v → Comes t v) :
    ∀ (es : Entries) (m : List (k.El × t.El)), TypedEntries k.plainType t.type es → es.keys.Nodup → (∀ e ∈ m, k.intoPlain e.1 ∉ es.keys) →
    ∃ l : List (k.El × t.El), es.each k.fromPlain t.from m = .ok (m ++ l) ∧ Entries.ofList (l.map fun e => (k.intoPlain e.1, t.into e.2)) = es ∧
      ∀ e ∈ l, k.Wf e.1 ∧ t.Wf e.2
  | .nil, m, _, _, _ => ⟨[], by rw [List.append_nil]; rfl, rfl, fun _ h => by cases h⟩
  | .cons key v r, m, h, hn, hm => by
    rw [Entries.keys, List.nodup_cons] at hn
    obtain ⟨k0, hk0, hk1, hk2⟩ := plain_comes k hk key h.1.1 h.1.2
    obtain ⟨x, h1, h2, h3⟩ := ih v h.2.1.1 h.2.1.2
    have hnew : k0 ∉ m.map (·.1) := fun hmem => by
      obtain ⟨e, he, he'⟩ := List.mem_map.mp hmem
      refine hm e he ?_
      rw [he', hk1, Entries.keys]
      exact List.mem_cons_self
    obtain ⟨l, e1, e2, e3⟩ := entries_come hk ih r (m ++ [(k0, x)]) h.2.2 hn.2 (fun e he hmem => by
      rcases List.mem_append.mp he with he | he
      · exact hm e he (by rw [Entries.keys]; exact List.mem_cons_of_mem _ hmem)
      · rw [List.mem_singleton] at he
        subst he
        rw [hk1] at hmem
        exact hn.1 hmem)
    refine ⟨(k0, x) :: l, ?_, ?_, ?_⟩
    · rw [Entries.each, hk0]
      show (t.from v >>= fun v => Entries.each k.fromPlain t.from r (mapPut k0 v m)) = _
      rw [h1]
      show Entries.each k.fromPlain t.from r (mapPut k0 x m) = _
      rw [mapPut_new hnew, e1, List.append_assoc]
      rfl
    · rw [List.map_cons, Entries.ofList, e2]
      dsimp only
      rw [hk1, h2]
    · intro y hy
      rcases List.mem_cons.mp hy with rfl | hy
      · exact ⟨hk2, h3⟩
      · exact e3 y hy

theorem map_comes {k : RKey} {t : RTy} (hk : k.total = true) (ih : ∀ v, v.type = t.type → Typed v → Comes t v) (es : Entries)
    (h : TypedEntries k.plainType t.type es) (hn : es.keys.Nodup) : Comes (.map k t) (.map k.plainType t.type es) := by
  obtain ⟨l, h1, h2, h3⟩ := entries_come hk ih es [] h hn (fun e he => by cases he)
  have hw : MapOf k.Wf t.Wf l := by
    refine ⟨?_, h3⟩
    rw [← h2, Entries.keys_ofList, List.map_map] at hn
    have e : ((fun e : PVal × Val => e.1) ∘ fun e : k.El × t.El => (k.intoPlain e.1, t.into e.2)) = k.intoPlain ∘ (·.1) := rfl
    rw [e, ← List.map_map] at hn
    exact hn.of_map
  exact ⟨l, h1, by rw [into_map hw, h2], hw⟩

theorem asBytes_u8 : ∀ (t : RTy), t.isU8 = true → ∀ d : List Byte, t.asBytes (t.ofBytes d) = some d ∧ ∀ x : t.El, t.Wf x
  | .plain (.uint .w8), _, d => ⟨rfl, fun _ => trivial⟩

theorem vec_comes {t : RTy} (ih : ∀ v, v.type = t.type → Typed v → Comes t v) (v : Val) (h : v.type = (RTy.vec t).type) (hv : Typed v) : Comes (.vec t) v := by
  rcases (by cases t.isU8 <;> simp : t.isU8 = true ∨ t.isU8 = false) with h8 | h8
  · have e : (RTy.vec t).type = .bytes := if_pos h8
    rw [e] at h
    cases v <;> first | (cases h; done) | skip
    rename_i d
    refine ⟨t.ofBytes d, if_pos h8, ?_, fun x _ => (asBytes_u8 t h8 d).2 x⟩
    rw [into_vec, (asBytes_u8 t h8 d).1]
  · have e : (RTy.vec t).type = .array t.type := if_neg (by rw [h8]; decide)
    rw [e] at h
    cases v <;> first | (cases h; done) | (injection h with h)
    subst h
    rename_i vs
    obtain ⟨l, h1, h2, h3⟩ := elems_come ih vs hv
    refine ⟨l, (if_neg (by rw [h8]; decide)).trans h1, ?_, h3⟩
    rw [into_vec]
    rcases asBytes_eq t l with ⟨h, _⟩ | ⟨_, e⟩
    · rw [h8] at h; cases h
    · rw [e]
      show Val.array t.type (Elems.ofList (l.map t.into)) = _
      rw [h2]

/-! ### All values -/

mutual
theorem comes : ∀ (t : RTy) (v : Val), t.total = true → v.type = t.type → Typed v → Comes t v
  | .plain k, v, ht, h, hv => key_comes k ht v h hv
  | .varuint24, v, _, h, hv => by
    cases v <;> first | (cases h; done) | (injection h with h)
    subst h
    have h1 : _ < 2 ^ 32 := Nat.lt_of_lt_of_le hv (by decide)
    exact ⟨_, (if_pos rfl).trans (if_pos h1), rfl, h1⟩
  | .varuint56, v, _, h, hv => by
    cases v <;> first | (cases h; done) | (injection h with h)
    subst h
    have h1 : _ < 2 ^ 64 := Nat.lt_of_lt_of_le hv (by decide)
    exact ⟨_, (if_pos rfl).trans (if_pos h1), rfl, h1⟩
  | .tokens, v, _, h, hv => by
    cases v <;> first | (cases h; done) | exact ⟨_, rfl, rfl, Nat.lt_of_lt_of_le hv (by decide)⟩
  | .cell, v, _, h, _ => by cases v <;> first | (cases h; done) | exact ⟨_, rfl, rfl, trivial⟩
  | .bytes, v, _, h, _ => by cases v <;> first | (cases h; done) | exact ⟨_, rfl, rfl, trivial⟩
  | .string, v, _, h, hv => by cases v <;> first | (cases h; done) | exact ⟨_, rfl, rfl, hv⟩
  | .option t, v, ht, h, hv => by
    have ih := comes t
    cases v <;> first | (cases h; done) | (injection h with h)
    · subst h
      exact ⟨none, rfl, rfl, fun x hx => by cases hx⟩
    · subst h
      obtain ⟨x, h1, h2, h3⟩ := ih _ ht hv.1 hv.2
      refine ⟨some x, ?_, congrArg (Val.present t.type) h2, fun y hy => by cases hy; exact h3⟩
      show (t.from _ >>= fun x => Except.ok (some x)) = _
      rw [h1]
      rfl
  | .vec t, v, ht, h, hv => vec_comes (fun v => comes t v ht) v h hv
  | .map k t, v, ht, h, hv => by
    have ht' : k.total = true ∧ t.total = true := by simpa [RTy.total] using ht
    have ih := fun v => comes t v ht'.2
    cases v <;> first | (cases h; done) | (injection h with h h')
    subst h h'
    exact map_comes ht'.1 ih _ hv.2 hv.1
  | .tuple ts, v, ht, h, hv => by
    have ih := come ts
    cases v <;> first | (cases h; done) | (injection h with h)
    obtain ⟨x, h1, h2, h3⟩ := ih _ ht h hv
    refine ⟨x, (if_pos ?_).trans h1, congrArg Val.tuple h2, h3⟩
    rw [← h2]
    exact intos_length ts x
  | .struct ts, v, ht, h, hv => by
    have ih := come ts
    cases v <;> first | (cases h; done) | (injection h with h)
    obtain ⟨x, h1, h2, h3⟩ := ih _ ht h hv
    exact ⟨x, h1, congrArg Val.tuple h2, h3⟩
  | .boxed t, v, ht, h, hv => comes t v ht h hv
theorem come : ∀ (ts : RTys) (items : Items), ts.total = true → items.types = ts.types → TypedItems items →
    ∃ x, ts.from items = .ok x ∧ ts.into x = items ∧ ts.Wf x
  | .nil, items, _, h, _ => by
    cases items with
    | nil => exact ⟨(), rfl, rfl, trivial⟩
    | cons => cases h
  | .cons name t r, items, ht, h, hv => by
    have ht' : t.total = true ∧ r.total = true := by simpa [RTys.total] using ht
    have ih1 := fun v => comes t v ht'.1
    have ih2 := fun l => come r l ht'.2
    cases items with
    | nil => cases h
    | cons n v l =>
      injection h with hn h h'
      obtain ⟨x, h1, h2, h3⟩ := ih1 v h hv.1
      obtain ⟨y, e1, e2, e3⟩ := ih2 l h' hv.2
      refine ⟨(x, y), ?_, ?_, h3, e3⟩
      · show (t.from v >>= fun x => r.from l >>= fun l => Except.ok (x, l)) = _
        rw [h1]
        show (r.from l >>= fun l => Except.ok (x, l)) = _
        rw [e1]
        rfl
      · show Items.cons name (t.into x) (r.into y) = _
        rw [h2, e2, ← hn]
end

end Abi
end Verif
