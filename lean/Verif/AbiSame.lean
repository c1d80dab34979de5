import Verif.AbiTextFull
import Verif.TychoParams
/-
Comparison and hashing of ABI types and values "without names" (`abi/mod.rs:86-175`, `abi/ty.rs:183-195, 699-766`, `abi/value/mod.rs:106-116, 439-490`).
-/
set_option linter.unusedVariables false
namespace Verif.Abi

/-! ### Types: the input of the hash function -/

/-- `abi/ty.rs:797` the derived `Hash` of `PlainAbiType`: the number of the variant, then its parameter. Every call of the hasher is one number. -/
def PTy.words : PTy → List Nat
  | .uint n => [0, n]
  | .int n => [1, n]
  | .bool => [2]
  | .address => [3]

/-- The number of items of a tuple. -/
def Tys.count : Tys → Nat
  | .nil => 0
  | .cons _ _ r => r.count + 1

mutual
/-- `abi/ty.rs:739-766` `Hash for WithoutName<AbiType>`: `discriminant`, then the parameters. A slice is hashed as its length followed by its items (the standard library),
an item of a tuple as its type (`abi/ty.rs:190-194`). Every call of the hasher is one number. -/
def Ty.words : Ty → List Nat
  | .uint n => [0, n]
  | .int n => [1, n]
  | .varuint n => [2, n]
  | .varint n => [3, n]
  | .bool => [4]
  | .cell => [5]
  | .address => [6]
  | .bytes => [7]
  | .fixedBytes n => [8, n]
  | .string => [9]
  | .token => [10]
  | .tuple ts => 11 :: ts.count :: ts.words
  | .array t => 12 :: t.words
  | .fixedArray t n => 13 :: (t.words ++ [n])
  | .map k t => 14 :: (k.words ++ t.words)
  | .optional t => 15 :: t.words
  | .ref t => 16 :: t.words
def Tys.words : Tys → List Nat
  | .nil => []
  | .cons _ t r => t.words ++ r.words
end

/-! ### Values -/

mutual
/-- `abi/value/mod.rs:439-490` `PartialEq for WithoutName<AbiValue>`. Cells are compared as trees (the code compares their hashes); the two forms of `Optional` are `absent` and `present`. -/
def Val.same : Val → Val → Bool
  | .uint n a, .uint m b => n == m && a == b
  | .int n a, .int m b => n == m && a == b
  | .varuint n a, .varuint m b => n == m && a == b
  | .varint n a, .varint m b => n == m && a == b
  | .bool a, .bool b => a == b
  | .cell a, .cell b => decide (a = b)
  | .address a, .address b => decide (a = b)
  | .bytes a, .bytes b => a == b
  | .fixedBytes a, .fixedBytes b => a == b
  | .string a, .string b => a == b
  | .token a, .token b => a == b
  | .tuple a, .tuple b => a.same b
  | .array s a, .array t b => s.same t && a.alike b
  | .fixedArray s a, .fixedArray t b => s.same t && a.alike b
  | .map j s a, .map k t b => decide (j = k) && (s.same t && a.same b)
  | .absent s, .absent t => s.same t
  | .present s a, .present t b => s.same t && a.same b
  | .ref a, .ref b => a.same b
  | _, _ => false
/-- A slice of `WithoutName<NamedAbiValue>` (`abi/value/mod.rs:106-111`). -/
def Items.same : Items → Items → Bool
  | .nil, .nil => true
  | .cons _ a r, .cons _ b s => a.same b && r.same s
  | _, _ => false
/-- A slice of `WithoutName<AbiValue>`. -/
def Elems.alike : Elems → Elems → Bool
  | .nil, .nil => true
  | .cons a r, .cons b s => a.same b && r.alike s
  | _, _ => false
/-- `abi/mod.rs:143-154` a `BTreeMap`: entries in the order of their keys. -/
def Entries.same : Entries → Entries → Bool
  | .nil, .nil => true
  | .cons j a r, .cons k b s => decide (j = k) && (a.same b && r.same s)
  | _, _ => false
end

/-! ### Specification: a value with all its names removed -/

mutual
def Val.bare : Val → Val
  | .tuple a => .tuple a.bare
  | .array t a => .array t.bare a.bare
  | .fixedArray t a => .fixedArray t.bare a.bare
  | .map k t a => .map k t.bare a.bare
  | .absent t => .absent t.bare
  | .present t a => .present t.bare a.bare
  | .ref a => .ref a.bare
  | .uint n a => .uint n a
  | .int n a => .int n a
  | .varuint n a => .varuint n a
  | .varint n a => .varint n a
  | .bool a => .bool a
  | .cell a => .cell a
  | .address a => .address a
  | .bytes a => .bytes a
  | .fixedBytes a => .fixedBytes a
  | .string a => .string a
  | .token a => .token a
def Items.bare : Items → Items
  | .nil => .nil
  | .cons _ a r => .cons "" a.bare r.bare
def Elems.bare : Elems → Elems
  | .nil => .nil
  | .cons a r => .cons a.bare r.bare
def Entries.bare : Entries → Entries
  | .nil => .nil
  | .cons k a r => .cons k a.bare r.bare
end

/-! ### Lemmas -/

theorem PTy.words_inj {j k : PTy} {r s : List Nat} (h : j.words ++ r = k.words ++ s) : j = k ∧ r = s := by
  cases j <;> cases k <;> simp_all [PTy.words]

theorem Tys.count_bare : ∀ t : Tys, t.bare.count = t.count
  | .nil => rfl
  | .cons _ _ r => by simp [Tys.bare, Tys.count, r.count_bare]

mutual
theorem words_bare : ∀ t : Ty, t.bare.words = t.words
  | .tuple x => by simp [Ty.bare, Ty.words, words_bare_list x, Tys.count_bare]
  | .array x => by simp [Ty.bare, Ty.words, words_bare x]
  | .fixedArray x n => by simp [Ty.bare, Ty.words, words_bare x]
  | .map k x => by simp [Ty.bare, Ty.words, words_bare x]
  | .optional x => by simp [Ty.bare, Ty.words, words_bare x]
  | .ref x => by simp [Ty.bare, Ty.words, words_bare x]
  | .uint _ => rfl
  | .int _ => rfl
  | .varuint _ => rfl
  | .varint _ => rfl
  | .bool => rfl
  | .cell => rfl
  | .address => rfl
  | .bytes => rfl
  | .fixedBytes _ => rfl
  | .string => rfl
  | .token => rfl
theorem words_bare_list : ∀ t : Tys, t.bare.words = t.words
  | .nil => rfl
  | .cons _ t r => by simp [Tys.bare, Tys.words, words_bare t, words_bare_list r]
end

mutual
theorem words_same : ∀ (a b : Ty) (r s : List Nat), a.words ++ r = b.words ++ s → a.same b = true ∧ r = s
  | .tuple x => by
    intro b r s h
    cases b <;> simp [Ty.words] at h
    simpa [Ty.same] using words_same_list x _ r s h.1 h.2
  | .array x => by
    intro b r s h
    cases b <;> simp [Ty.words] at h
    simpa [Ty.same] using words_same x _ r s h
  | .fixedArray x n => by
    intro b r s h
    cases b <;> simp [Ty.words] at h
    have e := words_same x _ _ _ h
    simp only [List.cons.injEq] at e
    exact ⟨by simp [Ty.same, e.1, e.2.1], e.2.2⟩
  | .map k x => by
    intro b r s h
    cases b <;> simp [Ty.words] at h
    obtain ⟨e1, e2⟩ := PTy.words_inj h
    have e := words_same x _ _ _ e2
    exact ⟨by simp [Ty.same, e.1, e1], e.2⟩
  | .optional x => by
    intro b r s h
    cases b <;> simp [Ty.words] at h
    simpa [Ty.same] using words_same x _ r s h
  | .ref x => by
    intro b r s h
    cases b <;> simp [Ty.words] at h
    simpa [Ty.same] using words_same x _ r s h
  | .uint n => by intro b r s h; cases b <;> simp_all [Ty.words, Ty.same]
  | .int n => by intro b r s h; cases b <;> simp_all [Ty.words, Ty.same]
  | .varuint n => by intro b r s h; cases b <;> simp_all [Ty.words, Ty.same]
  | .varint n => by intro b r s h; cases b <;> simp_all [Ty.words, Ty.same]
  | .bool => by intro b r s h; cases b <;> simp_all [Ty.words, Ty.same]
  | .cell => by intro b r s h; cases b <;> simp_all [Ty.words, Ty.same]
  | .address => by intro b r s h; cases b <;> simp_all [Ty.words, Ty.same]
  | .bytes => by intro b r s h; cases b <;> simp_all [Ty.words, Ty.same]
  | .fixedBytes n => by intro b r s h; cases b <;> simp_all [Ty.words, Ty.same]
  | .string => by intro b r s h; cases b <;> simp_all [Ty.words, Ty.same]
  | .token => by intro b r s h; cases b <;> simp_all [Ty.words, Ty.same]
theorem words_same_list : ∀ (a b : Tys) (r s : List Nat), a.count = b.count → a.words ++ r = b.words ++ s → a.same b = true ∧ r = s
  | .nil => by
    intro b r s hc h
    cases b with
    | nil => exact ⟨rfl, h⟩
    | cons _ _ _ => simp [Tys.count] at hc
  | .cons _ t x => by
    intro b r s hc h
    cases b with
    | nil => simp [Tys.count] at hc
    | cons _ u y =>
      simp [Tys.count] at hc
      simp only [Tys.words, List.append_assoc] at h
      have e := words_same t u _ _ h
      have e' := words_same_list x y _ _ hc e.2
      exact ⟨by simp [Tys.same, e.1, e'.1], e'.2⟩
end

mutual
theorem Val.same_bare : ∀ (a b : Val), a.same b = true ↔ a.bare = b.bare
  | .tuple x => by intro b; have ih := Items.same_bare x; cases b <;> simp [Val.same, Val.bare, ih]
  | .array t x => by intro b; have ih := Elems.alike_bare x; cases b <;> simp [Val.same, Val.bare, ih, Abi.same_bare]
  | .fixedArray t x => by intro b; have ih := Elems.alike_bare x; cases b <;> simp [Val.same, Val.bare, ih, Abi.same_bare]
  | .map k t x => by intro b; have ih := Entries.same_bare x; cases b <;> simp [Val.same, Val.bare, ih, Abi.same_bare]
  | .absent t => by intro b; cases b <;> simp [Val.same, Val.bare, Abi.same_bare]
  | .present t x => by intro b; have ih := Val.same_bare x; cases b <;> simp [Val.same, Val.bare, ih, Abi.same_bare]
  | .ref x => by intro b; have ih := Val.same_bare x; cases b <;> simp [Val.same, Val.bare, ih]
  | .uint _ _ => by intro b; cases b <;> simp [Val.same, Val.bare]
  | .int _ _ => by intro b; cases b <;> simp [Val.same, Val.bare]
  | .varuint _ _ => by intro b; cases b <;> simp [Val.same, Val.bare]
  | .varint _ _ => by intro b; cases b <;> simp [Val.same, Val.bare]
  | .bool _ => by intro b; cases b <;> simp [Val.same, Val.bare]
  | .cell _ => by intro b; cases b <;> simp [Val.same, Val.bare]
  | .address _ => by intro b; cases b <;> simp [Val.same, Val.bare]
  | .bytes _ => by intro b; cases b <;> simp [Val.same, Val.bare]
  | .fixedBytes _ => by intro b; cases b <;> simp [Val.same, Val.bare]
  | .string _ => by intro b; cases b <;> simp [Val.same, Val.bare]
  | .token _ => by intro b; cases b <;> simp [Val.same, Val.bare]
theorem Items.same_bare : ∀ (a b : Items), a.same b = true ↔ a.bare = b.bare
  | .nil => by intro b; cases b <;> simp [Items.same, Items.bare]
  | .cons _ x r => by intro b; have h1 := Val.same_bare x; have h2 := Items.same_bare r; cases b <;> simp [Items.same, Items.bare, h1, h2]
theorem Elems.alike_bare : ∀ (a b : Elems), a.alike b = true ↔ a.bare = b.bare
  | .nil => by intro b; cases b <;> simp [Elems.alike, Elems.bare]
  | .cons x r => by intro b; have h1 := Val.same_bare x; have h2 := Elems.alike_bare r; cases b <;> simp [Elems.alike, Elems.bare, h1, h2]
theorem Entries.same_bare : ∀ (a b : Entries), a.same b = true ↔ a.bare = b.bare
  | .nil => by intro b; cases b <;> simp [Entries.same, Entries.bare]
  | .cons k x r => by intro b; have h1 := Val.same_bare x; have h2 := Entries.same_bare r; cases b <;> simp [Entries.same, Entries.bare, h1, h2]
end

/-! Nothing that the serializer looks at depends on names. -/

theorem Elems.length_bare : ∀ a : Elems, a.bare.length = a.length
  | .nil => rfl
  | .cons _ r => by simp [Elems.bare, Elems.length, r.length_bare]
theorem Elems.isEmpty_bare (a : Elems) : a.bare.isEmpty = a.isEmpty := by cases a <;> rfl
theorem Entries.isEmpty_bare (a : Entries) : a.bare.isEmpty = a.isEmpty := by cases a <;> rfl

mutual
theorem max_bare : ∀ t : Ty, t.bare.max = t.max
  | .tuple x => by simp [Ty.bare, Ty.max, max_bare_list x]
  | .optional x => by simp [Ty.bare, Ty.max, max_bare x]
  | .array _ => rfl
  | .fixedArray _ _ => rfl
  | .map _ _ => rfl
  | .ref _ => rfl
  | .uint _ => rfl
  | .int _ => rfl
  | .varuint _ => rfl
  | .varint _ => rfl
  | .bool => rfl
  | .cell => rfl
  | .address => rfl
  | .bytes => rfl
  | .fixedBytes _ => rfl
  | .string => rfl
  | .token => rfl
theorem max_bare_list : ∀ t : Tys, t.bare.max = t.max
  | .nil => rfl
  | .cons _ t r => by simp [Tys.bare, Tys.max, max_bare t, max_bare_list r]
end

mutual
theorem Val.type_bare : ∀ v : Val, v.bare.type = v.type.bare
  | .tuple x => by simp [Val.bare, Val.type, Ty.bare, Items.type_bare x]
  | .array t x => rfl
  | .fixedArray t x => by simp [Val.bare, Val.type, Ty.bare, Elems.length_bare]
  | .map k t x => rfl
  | .absent t => rfl
  | .present t x => rfl
  | .ref x => by simp [Val.bare, Val.type, Ty.bare, Val.type_bare x]
  | .uint _ _ => rfl
  | .int _ _ => rfl
  | .varuint _ _ => rfl
  | .varint _ _ => rfl
  | .bool _ => rfl
  | .cell _ => rfl
  | .address _ => rfl
  | .bytes _ => rfl
  | .fixedBytes _ => rfl
  | .string _ => rfl
  | .token _ => rfl
theorem Items.type_bare : ∀ v : Items, v.bare.types = v.types.bare
  | .nil => rfl
  | .cons _ x r => by simp [Items.bare, Items.types, Tys.bare, Val.type_bare x, Items.type_bare r]
end

mutual
theorem Val.sizes_bare : ∀ v : Val, v.bare.exact = v.exact ∧ v.bare.maxSize = v.maxSize
  | .tuple x => by simp [Val.bare, Val.exact, Val.maxSize, Items.sizes_bare x]
  | .array t x => by simp [Val.bare, Val.exact, Val.maxSize, Elems.isEmpty_bare]
  | .fixedArray t x => by simp [Val.bare, Val.exact, Val.maxSize, Elems.isEmpty_bare]
  | .map k t x => by simp [Val.bare, Val.exact, Val.maxSize, Entries.isEmpty_bare]
  | .absent t => by simp [Val.bare, Val.exact, Val.maxSize, max_bare]
  | .present t x => by simp [Val.bare, Val.exact, Val.maxSize, max_bare, Val.sizes_bare x]
  | .ref x => ⟨rfl, rfl⟩
  | .uint _ _ => ⟨rfl, rfl⟩
  | .int _ _ => ⟨rfl, rfl⟩
  | .varuint _ _ => ⟨rfl, rfl⟩
  | .varint _ _ => ⟨rfl, rfl⟩
  | .bool _ => ⟨rfl, rfl⟩
  | .cell _ => ⟨rfl, rfl⟩
  | .address _ => ⟨rfl, rfl⟩
  | .bytes _ => ⟨rfl, rfl⟩
  | .fixedBytes _ => ⟨rfl, rfl⟩
  | .string _ => ⟨rfl, rfl⟩
  | .token _ => ⟨rfl, rfl⟩
theorem Items.sizes_bare : ∀ v : Items, v.bare.exact = v.exact ∧ v.bare.maxSize = v.maxSize
  | .nil => ⟨rfl, rfl⟩
  | .cons _ x r => by simp [Items.bare, Items.exact, Items.maxSize, Val.sizes_bare x, Items.sizes_bare r]
end

theorem Val.size_bare (ver : Ver) (v : Val) : v.bare.size ver = v.size ver := by simp [Val.size, v.sizes_bare]

theorem optMax_bare (t : Ty) : optMax t.bare = optMax t := by simp [optMax, max_bare]
theorem storePresent_bare (acc : Cell → Bool) (t : Ty) (b : CellB Cell) : storePresent acc t.bare b = storePresent acc t b := by simp [storePresent, max_bare]

mutual
theorem write_bare (acc : Cell → Bool) (ver : Ver) : ∀ (v : Val), write acc ver v.bare = write acc ver v
  | .tuple x => by funext s; simp only [Val.bare, write]; rw [writeItems_bare acc ver x]
  | .array t x => by funext s; simp only [Val.bare, write]; rw [max_bare, writeElems_bare acc ver x, Elems.isEmpty_bare, Elems.length_bare]
  | .fixedArray t x => by funext s; simp only [Val.bare, write]; rw [max_bare, writeElems_bare acc ver x, Elems.isEmpty_bare]
  | .map k t x => by funext s; simp only [Val.bare, write]; rw [max_bare, writeEntries_bare acc ver x]
  | .absent t => by funext s; simp only [Val.bare, write]; rw [optMax_bare]
  | .present t x => by funext s; simp only [Val.bare, write, storePresent_bare, optMax_bare, max_bare]; rw [write_bare acc ver x, Val.size_bare]
  | .ref x => by funext s; simp only [Val.bare, write]; rw [write_bare acc ver x, Val.size_bare]
  | .uint _ _ => rfl
  | .int _ _ => rfl
  | .varuint _ _ => rfl
  | .varint _ _ => rfl
  | .bool _ => rfl
  | .cell _ => rfl
  | .address _ => rfl
  | .bytes _ => rfl
  | .fixedBytes _ => rfl
  | .string _ => rfl
  | .token _ => rfl
theorem writeItems_bare (acc : Cell → Bool) (ver : Ver) : ∀ (v : Items), writeItems acc ver v.bare = writeItems acc ver v
  | .nil => rfl
  | .cons _ x r => by funext s; simp only [Items.bare, writeItems]; rw [write_bare acc ver x, writeItems_bare acc ver r]
theorem writeElems_bare (acc : Cell → Bool) (ver : Ver) : ∀ (v : Elems) (inl : Bool), writeElems acc ver inl v.bare = writeElems acc ver inl v
  | .nil => fun _ => rfl
  | .cons x r => by intro inl; funext i d; simp only [Elems.bare, writeElems]; rw [write_bare acc ver x, Val.size_bare, writeElems_bare acc ver r]
theorem writeEntries_bare (acc : Cell → Bool) (ver : Ver) : ∀ (v : Entries) (inl : Bool) (n : Nat), writeEntries acc ver inl n v.bare = writeEntries acc ver inl n v
  | .nil => fun _ _ => rfl
  | .cons k x r => by intro inl n; funext d; simp only [Entries.bare, writeEntries]; rw [write_bare acc ver x, Val.size_bare, writeEntries_bare acc ver r]
end

theorem encode_bare (acc : Cell → Bool) (ver : Ver) (v : Val) : encode acc ver v.bare = encode acc ver v := by
  unfold encode
  rw [write_bare, Val.size_bare]

end Verif.Abi
