import Verif.AbiText
/-!
# Texts of ABI types: lemmas
-/
set_option linter.unusedVariables false
set_option linter.unusedSimpArgs false
namespace Verif
namespace Abi

open Text

/-! ### Splitting -/

theorem splitOnce_app {c : Char} {b : List Char} : ∀ {a : List Char}, c ∉ a → splitOnce c (a ++ c :: b) = some (a, b)
  | [], _ => by simp [splitOnce]
  | x :: a, h => by
    have hx : x ≠ c := fun e => h (e ▸ List.mem_cons_self)
    have ha : c ∉ a := fun e => h (List.mem_cons_of_mem _ e)
    simp [splitOnce, hx, splitOnce_app ha]

theorem rsplitOnce_app {c : Char} {a b : List Char} (h : c ∉ b) : rsplitOnce c (a ++ c :: b) = some (a, b) := by
  unfold rsplitOnce
  have : (a ++ c :: b).reverse = b.reverse ++ c :: a.reverse := by simp
  rw [this, splitOnce_app (by simpa using h)]
  simp

theorem stripSuffix_app {c : Char} {s : List Char} : stripSuffix c (s ++ [c]) = some s := by
  simp [stripSuffix]

theorem stripSuffix_ne {c d : Char} {s : List Char} (h : d ≠ c) : stripSuffix c (s ++ [d]) = none := by
  simp [stripSuffix, h]

theorem stripSuffix_none {c : Char} {s : List Char} (h : c ∉ s) : stripSuffix c s = none := by
  unfold stripSuffix
  rw [if_neg]
  intro e
  exact h (List.mem_of_getLast? e)

theorem stripPrefix_app {s : List Char} : ∀ {p : List Char}, stripPrefix p (p ++ s) = some s
  | [] => by cases s <;> rfl
  | a :: p => by simp [stripPrefix, stripPrefix_app (p := p)]

/-! ### Numbers and words -/

/-- Letters and digits. -/
def Word (s : List Char) : Prop := ∀ c ∈ s, c.isAlphanum = true

theorem word_append {a b : List Char} (ha : Word a) (hb : Word b) : Word (a ++ b) := by
  intro c hc
  rcases List.mem_append.mp hc with h | h
  · exact ha c h
  · exact hb c h

theorem word_dec (n : Nat) : Word (dec n) := by
  intro c hc
  have := Nat.isDigit_of_mem_toDigits (by decide) (by decide) hc
  simp [Char.isAlphanum, this]

theorem dec_ne (n : Nat) : dec n ≠ [] := Nat.toDigits_ne_nil

theorem word_not {s : List Char} (h : Word s) {c : Char} (hc : c.isAlphanum = false) : c ∉ s := fun hm => by
  rw [h c hm] at hc; cases hc

theorem parse_dec {max n : Nat} (h : n ≤ max) : parseUint 10 max (dec n) = some n := parseUint_plain (parseDigits_dec n) (by decide) h

theorem parseNonZero_dec {n : Nat} (h1 : 1 ≤ n) (h : n < 2 ^ 8) : parseNonZero (dec n) = some n := by
  unfold parseNonZero
  rw [parse_dec (by omega)]
  have : n ≠ 0 := by omega
  simp [this]

theorem ptext_word : ∀ (k : PTy), Word k.text
  | .uint n => word_append (by unfold Word; decide) (word_dec n)
  | .int n => word_append (by unfold Word; decide) (word_dec n)
  | .bool => by unfold Word; decide
  | .address => by unfold Word; decide

theorem ptext_parse : ∀ (k : PTy), k.Ok → PTy.fromText k.text = .ok k
  | .uint n, h => by
    have e : PTy.fromText (PTy.uint n).text = orErr .invalidBitLen ((parseUint 10 65535 (dec n)).map PTy.uint) := by
      simp [PTy.fromText, PTy.text, stripPrefix]
    rw [e, parse_dec (by have : n < 2 ^ 16 := h; omega)]; rfl
  | .int n, h => by
    have e : PTy.fromText (PTy.int n).text = orErr .invalidBitLen ((parseUint 10 65535 (dec n)).map PTy.int) := by
      simp [PTy.fromText, PTy.text, stripPrefix]
    rw [e, parse_dec (by have : n < 2 ^ 16 := h; omega)]; rfl
  | .bool, _ => rfl
  | .address, _ => rfl

/-- Types whose text is one word. -/
def Ty.leaf : Ty → Bool
  | .tuple _ | .array _ | .fixedArray _ _ | .map _ _ | .optional _ | .ref _ => false
  | _ => true

theorem leaf_word : ∀ {t : Ty}, t.leaf = true → Word t.text
  | .uint n, _ => word_append (by unfold Word; decide) (word_dec n)
  | .int n, _ => word_append (by unfold Word; decide) (word_dec n)
  | .varuint n, _ => word_append (by unfold Word; decide) (word_dec n)
  | .varint n, _ => word_append (by unfold Word; decide) (word_dec n)
  | .fixedBytes n, _ => word_append (by unfold Word; decide) (word_dec n)
  | .bool, _ | .cell, _ | .address, _ | .bytes, _ | .string, _ | .token, _ => by unfold Word; decide

theorem leaf_parse : ∀ {t : Ty}, t.leaf = true → t.Ok → wordType t.text = some (.ok t)
  | .uint n, _, h => by
    have e : wordType ("uint".toList ++ dec n) = some (orErr .invalidBitLen ((parseUint 10 65535 (dec n)).map Ty.uint)) := by
      simp [wordType, stripPrefix]
    show wordType ("uint".toList ++ dec n) = _
    rw [e, parse_dec (by have : n < 2 ^ 16 := h; omega)]; rfl
  | .int n, _, h => by
    have e : wordType ("int".toList ++ dec n) = some (orErr .invalidBitLen ((parseUint 10 65535 (dec n)).map Ty.int)) := by
      simp [wordType, stripPrefix]
    show wordType ("int".toList ++ dec n) = _
    rw [e, parse_dec (by have : n < 2 ^ 16 := h; omega)]; rfl
  | .varuint n, _, h => by
    have e : wordType ("varuint".toList ++ dec n) = some (orErr .invalidByteLen ((parseNonZero (dec n)).map Ty.varuint)) := by
      simp [wordType, stripPrefix]
    show wordType ("varuint".toList ++ dec n) = _
    rw [e, parseNonZero_dec h.1 h.2]; rfl
  | .varint n, _, h => by
    have e : wordType ("varint".toList ++ dec n) = some (orErr .invalidByteLen ((parseNonZero (dec n)).map Ty.varint)) := by
      simp [wordType, stripPrefix]
    show wordType ("varint".toList ++ dec n) = _
    rw [e, parseNonZero_dec h.1 h.2]; rfl
  | .fixedBytes n, _, h => by
    have e : wordType ("fixedbytes".toList ++ dec n) = some (orErr .invalidByteLen ((parseUint 10 (2 ^ 64 - 1) (dec n)).map Ty.fixedBytes)) := by
      simp [wordType, stripPrefix]
    show wordType ("fixedbytes".toList ++ dec n) = _
    rw [e, parse_dec (by unfold Ty.Ok at h; omega)]; rfl
  | .bool, _, _ | .cell, _, _ | .address, _, _ | .bytes, _, _ | .string, _, _ | .token, _, _ => rfl

theorem leaf_nonempty : ∀ {t : Ty}, t.leaf = true → t.text ≠ []
  | .uint _, _ | .int _, _ | .varuint _, _ | .varint _, _ | .fixedBytes _, _ => List.cons_ne_nil _ _
  | .bool, _ | .cell, _ | .address, _ | .bytes, _ | .string, _ | .token, _ => List.cons_ne_nil _ _

/-! ### The short form -/

/-- The type with its components emptied. -/
abbrev Ty.emptied (t : Ty) : Ty := t.setComponents .nil

theorem fromSimple_succ_array {fuel : Nat} {ty : List Char} : fromSimple (fuel + 1) (ty ++ ['[', ']']) = (fromSimple fuel ty).map Ty.array := by
  have e : ty ++ ['[', ']'] = (ty ++ ['[']) ++ [']'] := by simp
  have e2 : rsplitOnce '[' (ty ++ ['[']) = some (ty, []) := rsplitOnce_app (by simp)
  rw [e]
  rw [fromSimple]
  rw [stripSuffix_app]
  dsimp only
  rw [e2]
  rfl

theorem fromSimple_succ_fixed {fuel : Nat} {ty : List Char} {n : Nat} (h : n < 2 ^ 64) :
    fromSimple (fuel + 1) (ty ++ '[' :: (dec n ++ [']'])) = (fromSimple fuel ty).map fun t => Ty.fixedArray t n := by
  have e : ty ++ '[' :: (dec n ++ [']']) = (ty ++ '[' :: dec n) ++ [']'] := by simp
  have e2 : rsplitOnce '[' (ty ++ '[' :: dec n) = some (ty, dec n) := rsplitOnce_app (word_not (word_dec n) (by decide))
  rw [e]
  rw [fromSimple]
  rw [stripSuffix_app]
  dsimp only
  rw [e2]
  dsimp only
  rw [if_neg (dec_ne n), parse_dec (by omega)]

theorem fromSimple_word {fuel : Nat} {s : List Char} {t : Ty} (hw : Word s) (h : wordType s = some (.ok t)) : fromSimple (fuel + 1) s = .ok t := by
  rw [fromSimple]
  rw [stripSuffix_none (word_not hw (by decide)), h]

theorem wordType_open {c : Char} {s : List Char} (hb : c ≠ 'b') (hc : c ≠ 'c') (ha : c ≠ 'a') (hs : c ≠ 's') (hg : c ≠ 'g') (ht : c ≠ 't') (hu : c ≠ 'u') (hi : c ≠ 'i')
    (hv : c ≠ 'v') (hf : c ≠ 'f') : wordType (c :: s) = none := by
  simp [wordType, stripPrefix, hb, hc, ha, hs, hg, ht, hu, hi, hv, hf, Ne.symm hb, Ne.symm hc, Ne.symm ha, Ne.symm hs, Ne.symm hg, Ne.symm ht, Ne.symm hu, Ne.symm hi, Ne.symm hv,
    Ne.symm hf]

theorem fromSimple_succ_map {fuel : Nat} {k : PTy} {ty : List Char} (hk : k.Ok) :
    fromSimple (fuel + 1) ("map(".toList ++ (k.text ++ ',' :: (ty ++ [')']))) = (fromSimple fuel ty).map fun t => Ty.map k t := by
  have e0 : stripSuffix ']' ("map(".toList ++ (k.text ++ ',' :: (ty ++ [')']))) = none := by
    have : "map(".toList ++ (k.text ++ ',' :: (ty ++ [')'])) = ("map(".toList ++ (k.text ++ ',' :: ty)) ++ [')'] := by simp
    rw [this, stripSuffix_ne (by decide)]
  have e1 : wordType ("map(".toList ++ (k.text ++ ',' :: (ty ++ [')']))) = none :=
    wordType_open (by decide) (by decide) (by decide) (by decide) (by decide) (by decide) (by decide) (by decide) (by decide) (by decide)
  have e2 : stripSuffix ')' (k.text ++ ',' :: (ty ++ [')'])) = some (k.text ++ ',' :: ty) := by
    have : k.text ++ ',' :: (ty ++ [')']) = (k.text ++ ',' :: ty) ++ [')'] := by simp
    rw [this, stripSuffix_app]
  rw [fromSimple]
  rw [e0]
  dsimp only
  rw [e1]
  dsimp only
  rw [stripPrefix_app]
  dsimp only
  rw [e2]
  dsimp only
  rw [splitOnce_app (word_not (ptext_word k) (by decide))]
  dsimp only
  rw [ptext_parse k hk]
  rfl

theorem fromSimple_succ_optional {fuel : Nat} {ty : List Char} :
    fromSimple (fuel + 1) ("optional(".toList ++ (ty ++ [')'])) = (fromSimple fuel ty).map Ty.optional := by
  have e0 : stripSuffix ']' ("optional(".toList ++ (ty ++ [')'])) = none := by
    have : "optional(".toList ++ (ty ++ [')']) = ("optional(".toList ++ ty) ++ [')'] := by simp
    rw [this, stripSuffix_ne (by decide)]
  have e1 : wordType ("optional(".toList ++ (ty ++ [')'])) = none :=
    wordType_open (by decide) (by decide) (by decide) (by decide) (by decide) (by decide) (by decide) (by decide) (by decide) (by decide)
  have e2 : stripPrefix "map(".toList ("optional(".toList ++ (ty ++ [')'])) = none := by simp [stripPrefix]
  rw [fromSimple]
  rw [e0]
  dsimp only
  rw [e1]
  dsimp only
  rw [e2]
  dsimp only
  rw [stripPrefix_app]
  dsimp only
  rw [stripSuffix_app]

theorem fromSimple_succ_ref {fuel : Nat} {ty : List Char} :
    fromSimple (fuel + 1) ("ref(".toList ++ (ty ++ [')'])) = (fromSimple fuel ty).map Ty.ref := by
  have e0 : stripSuffix ']' ("ref(".toList ++ (ty ++ [')'])) = none := by
    have : "ref(".toList ++ (ty ++ [')']) = ("ref(".toList ++ ty) ++ [')'] := by simp
    rw [this, stripSuffix_ne (by decide)]
  have e1 : wordType ("ref(".toList ++ (ty ++ [')'])) = none :=
    wordType_open (by decide) (by decide) (by decide) (by decide) (by decide) (by decide) (by decide) (by decide) (by decide) (by decide)
  have e2 : stripPrefix "map(".toList ("ref(".toList ++ (ty ++ [')'])) = none := by simp [stripPrefix]
  have e3 : stripPrefix "optional(".toList ("ref(".toList ++ (ty ++ [')'])) = none := by simp [stripPrefix]
  rw [fromSimple]
  rw [e0]
  dsimp only
  rw [e1]
  dsimp only
  rw [e2]
  dsimp only
  rw [e3]
  dsimp only
  rw [stripPrefix_app]
  dsimp only
  rw [stripSuffix_app]

theorem leaf_simple : ∀ {t : Ty}, t.leaf = true → t.simple = t.text ∧ t.emptied = t
  | .uint _, _ | .int _, _ | .varuint _, _ | .varint _, _ | .fixedBytes _, _ | .bool, _ | .cell, _ | .address, _ | .bytes, _ | .string, _ | .token, _ => ⟨rfl, rfl⟩

theorem simple_leaf {t : Ty} (hl : t.leaf = true) (h : t.Ok) {fuel : Nat} : fromSimple (fuel + 1) t.simple = .ok t.emptied := by
  rw [(leaf_simple hl).1, (leaf_simple hl).2]
  exact fromSimple_word (leaf_word hl) (leaf_parse hl h)

theorem simple_parse : ∀ (t : Ty) (fuel : Nat), t.Ok → t.simple.length < fuel → fromSimple fuel t.simple = .ok t.emptied
  | _, 0, _, hf => absurd hf (Nat.not_lt_zero _)
  | .tuple ts, k + 1, h, hf => fromSimple_word (t := .tuple .nil) (show Word "tuple".toList by unfold Word; decide) (by rfl)
  | .array t, k + 1, h, hf => by
    have hl : t.simple.length < k := by
      replace hf : (t.simple ++ ['[', ']']).length < k + 1 := hf
      simp only [ List.length_append, List.length_cons, List.length_nil] at hf; omega
    have ih := simple_parse t k h hl
    show fromSimple (k + 1) (t.simple ++ ['[', ']']) = _
    rw [fromSimple_succ_array, ih]; rfl
  | .fixedArray t n, k + 1, h, hf => by
    have hl : t.simple.length < k := by
      replace hf : (t.simple ++ '[' :: (dec n ++ [']'])).length < k + 1 := hf
      simp only [ List.length_append, List.length_cons, List.length_nil] at hf; omega
    have ih := simple_parse t k h.1 hl
    show fromSimple (k + 1) (t.simple ++ '[' :: (dec n ++ [']'])) = _
    rw [fromSimple_succ_fixed h.2, ih]; rfl
  | .map p t, k + 1, h, hf => by
    have hl : t.simple.length < k := by
      replace hf : ("map(".toList ++ (p.text ++ ',' :: (t.simple ++ [')']))).length < k + 1 := hf
      simp only [ List.length_append, List.length_cons, List.length_nil] at hf; omega
    have ih := simple_parse t k h.2 hl
    show fromSimple (k + 1) ("map(".toList ++ (p.text ++ ',' :: (t.simple ++ [')']))) = _
    rw [fromSimple_succ_map h.1, ih]; rfl
  | .optional t, k + 1, h, hf => by
    have hl : t.simple.length < k := by
      replace hf : ("optional(".toList ++ (t.simple ++ [')'])).length < k + 1 := hf
      simp only [ List.length_append, List.length_cons, List.length_nil] at hf; omega
    have ih := simple_parse t k h hl
    show fromSimple (k + 1) ("optional(".toList ++ (t.simple ++ [')'])) = _
    rw [fromSimple_succ_optional, ih]; rfl
  | .ref t, k + 1, h, hf => by
    have hl : t.simple.length < k := by
      replace hf : ("ref(".toList ++ (t.simple ++ [')'])).length < k + 1 := hf
      simp only [ List.length_append, List.length_cons, List.length_nil] at hf; omega
    have ih := simple_parse t k h hl
    show fromSimple (k + 1) ("ref(".toList ++ (t.simple ++ [')'])) = _
    rw [fromSimple_succ_ref, ih]; rfl
  | .uint _, k + 1, h, _ | .int _, k + 1, h, _ | .varuint _, k + 1, h, _ | .varint _, k + 1, h, _ | .fixedBytes _, k + 1, h, _ | .bool, k + 1, h, _ | .cell, k + 1, h, _
  | .address, k + 1, h, _ | .bytes, k + 1, h, _ | .string, k + 1, h, _ | .token, k + 1, h, _ => simple_leaf rfl h

/-! ### Descriptions -/

theorem components_emptied : ∀ (t : Ty), t.emptied.components = t.components.map fun _ => .nil
  | .tuple _ => rfl
  | .array t | .fixedArray t _ | .map _ t | .optional t | .ref t => components_emptied t
  | .uint _ | .int _ | .varuint _ | .varint _ | .fixedBytes _ | .bool | .cell | .address | .bytes | .string | .token => rfl

theorem set_emptied : ∀ (t : Ty) (a b : Tys), (t.setComponents a).setComponents b = t.setComponents b
  | .tuple _, _, _ => rfl
  | .array t, a, b => congrArg Ty.array (set_emptied t a b)
  | .fixedArray t n, a, b => congrArg (fun t => Ty.fixedArray t n) (set_emptied t a b)
  | .map k t, a, b => congrArg (Ty.map k) (set_emptied t a b)
  | .optional t, a, b => congrArg Ty.optional (set_emptied t a b)
  | .ref t, a, b => congrArg Ty.ref (set_emptied t a b)
  | .uint _, _, _ | .int _, _, _ | .varuint _, _, _ | .varint _, _, _ | .fixedBytes _, _, _ | .bool, _, _ | .cell, _, _ | .address, _, _ | .bytes, _, _ | .string, _, _
  | .token, _, _ => rfl

theorem set_components : ∀ (t : Ty) (a : Tys), t.components = some a → t.setComponents a = t
  | .tuple _, a, h => by cases h; rfl
  | .array t, a, h => congrArg Ty.array (set_components t a h)
  | .fixedArray t n, a, h => congrArg (fun t => Ty.fixedArray t n) (set_components t a h)
  | .map k t, a, h => congrArg (Ty.map k) (set_components t a h)
  | .optional t, a, h => congrArg Ty.optional (set_components t a h)
  | .ref t, a, h => congrArg Ty.ref (set_components t a h)
  | .uint _, _, h | .int _, _, h | .varuint _, _, h | .varint _, _, h | .fixedBytes _, _, h | .bool, _, h | .cell, _, h | .address, _, h | .bytes, _, h | .string, _, h
  | .token, _, h => by cases h

theorem no_components : ∀ (t : Ty), t.components = none → t.fields = none ∧ t.emptied = t
  | .tuple _, h => by cases h
  | .array t, h => ⟨(no_components t h).1, congrArg Ty.array (no_components t h).2⟩
  | .fixedArray t n, h => ⟨(no_components t h).1, congrArg (fun t => Ty.fixedArray t n) (no_components t h).2⟩
  | .map k t, h => ⟨(no_components t h).1, congrArg (Ty.map k) (no_components t h).2⟩
  | .optional t, h => ⟨(no_components t h).1, congrArg Ty.optional (no_components t h).2⟩
  | .ref t, h => ⟨(no_components t h).1, congrArg Ty.ref (no_components t h).2⟩
  | .uint _, _ | .int _, _ | .varuint _, _ | .varint _, _ | .fixedBytes _, _ | .bool, _ | .cell, _ | .address, _ | .bytes, _ | .string, _ | .token, _ => ⟨rfl, rfl⟩

theorem fromText_simple {t : Ty} (h : t.Ok) : Ty.fromText t.simple = .ok t.emptied := simple_parse t _ h (Nat.lt_succ_self _)

/-- From the fields of the components to the type. -/
theorem fromField_of {name : String} {t : Ty} (h : t.Ok)
    (hc : ∀ a, t.components = some a → ∃ fs, t.fields = some fs ∧ fromFields fs = .ok a) : fromField (mkField name t.simple t.fields) = .ok (name, t) := by
  cases e : t.components with
  | none =>
    obtain ⟨e1, e2⟩ := no_components t e
    have e3 : t.emptied.components = none := by rw [components_emptied, e]; rfl
    rw [e1]
    show (Ty.fromText t.simple).bind _ = _
    rw [fromText_simple h]
    show (if t.emptied.components.isSome then _ else _) = _
    rw [e3, e2]
    rfl
  | some a =>
    obtain ⟨fs, e1, e2⟩ := hc a e
    have e3 : t.emptied.components = some .nil := by rw [components_emptied, e]; rfl
    rw [e1]
    have : fromField (mkField name t.simple (some fs)) = (Ty.fromText t.simple).bind fun t =>
      if t.components.isSome then (fromFields fs).map fun ts => (name, t.setComponents ts) else .error .unexpectedComponents := by
      show fromField (.composite name t.simple fs) = _
      unfold fromField
      rfl
    rw [this, fromText_simple h]
    show (if t.emptied.components.isSome then (fromFields fs).map (fun ts => (name, t.emptied.setComponents ts)) else .error .unexpectedComponents) = _
    rw [e3, e2]
    show Except.ok (name, t.emptied.setComponents a) = _
    rw [set_emptied, set_components t a e]

mutual
theorem fields_parse : ∀ (t : Ty), t.Ok → ∀ a, t.components = some a → ∃ fs, t.fields = some fs ∧ fromFields fs = .ok a
  | .tuple ts, h, a, e => by
    have ih := fields_parse_list ts h
    cases e
    exact ⟨_, rfl, ih⟩
  | .array t, h, a, e => fields_parse t h a e
  | .fixedArray t n, h, a, e => fields_parse t h.1 a e
  | .map k t, h, a, e => fields_parse t h.2 a e
  | .optional t, h, a, e => fields_parse t h a e
  | .ref t, h, a, e => fields_parse t h a e
  | .uint _, _, _, e | .int _, _, _, e | .varuint _, _, _, e | .varint _, _, _, e | .fixedBytes _, _, _, e | .bool, _, _, e | .cell, _, _, e | .address, _, _, e
  | .bytes, _, _, e | .string, _, _, e | .token, _, _, e => by cases e
theorem fields_parse_list : ∀ (ts : Tys), ts.Ok → fromFields ts.fields = .ok ts
  | .nil, _ => rfl
  | .cons n t r, h => by
    have ih1 := fields_parse t h.1
    have ih2 := fields_parse_list r h.2
    show (fromField (mkField n t.simple t.fields)).bind (fun x => (fromFields r.fields).map fun ts => Tys.cons x.1 x.2 ts) = _
    rw [fromField_of h.1 ih1, ih2]
    rfl
end

end Abi
end Verif
