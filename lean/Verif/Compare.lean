import Verif.CellBuilderLemmas
import Verif.SliceScan2
/-
Comparison of builders (`cell/builder.rs:186-228, 717-741`) and of hash maps "without names" (`abi/mod.rs:156-175`).
-/
set_option linter.unusedVariables false
namespace Verif.Compare

/-- Comparison of byte arrays: lexicographic (the standard library). -/
def bytesCmp (a b : List Byte) : Ordering := a.compareLex (fun x y => compare x.toNat y.toNat) b

/-- `cell/builder.rs:718-724` `PartialEq for CellDataBuilder` -/
def dataEq (a b : DataBuilder) : Bool := a.bitLen == b.bitLen && a.data == b.data

/-- `cell/builder.rs:726-736` `Ord for CellDataBuilder` -/
def dataCmp (a b : DataBuilder) : Ordering :=
  match compare a.bitLen b.bitLen with
  | .eq => bytesCmp a.data b.data
  | o => o

variable {ρ : Type}

/-- `cell/builder.rs:188-195` `PartialEq for CellBuilder`; references are compared by their representation hash (`cell/mod.rs:381-386`). -/
def builderEq (hash : ρ → List Byte) (a b : CellB ρ) : Bool :=
  a.exotic == b.exotic && (dataEq a.inner b.inner && a.refs.map hash == b.refs.map hash)

/-- The loop of `cell/builder.rs:212-217` over pairs of references. -/
def refsCmp (hash : ρ → List Byte) : List ρ → List ρ → Ordering
  | x :: xs, y :: ys =>
    match bytesCmp (hash x) (hash y) with
    | .eq => refsCmp hash xs ys
    | o => o
  | _, _ => .eq

/-- `cell/builder.rs:197-221` `Ord for CellBuilder` -/
def builderCmp (hash : ρ → List Byte) (a b : CellB ρ) : Ordering :=
  match compare a.inner.bitLen b.inner.bitLen with
  | .eq =>
    match compare a.refs.length b.refs.length with
    | .eq =>
      match bytesCmp a.inner.data b.inner.data with
      | .eq => refsCmp hash a.refs b.refs
      | o => o
    | o => o
  | o => o

/-- `abi/mod.rs:156-175` `PartialEq for WithoutName<HashMap<K, V, S>>`; a hash map is a list of entries in any order, `same` compares two values. -/
def mapEq {K V : Type} [DecidableEq K] (same : V → V → Bool) (a b : List (K × V)) : Bool :=
  a.length == b.length && a.all fun e => match b.lookup e.1 with
    | some v => same e.2 v
    | none => false

/-! ### Lemmas -/

theorem then_match (x y : Ordering) : (match x with | .eq => y | o => o) = x.then y := by cases x <;> rfl

theorem byte_cmp (x y : Byte) : compare x.toNat y.toNat = lexBits (wordBits x) (wordBits y) := by
  rw [lexBits_natOfBits (by simp), natOfBits_wordBits, natOfBits_wordBits]

theorem bytesCmp_cons (x y : Byte) (xs ys : List Byte) : bytesCmp (x :: xs) (y :: ys) = (compare x.toNat y.toNat).then (bytesCmp xs ys) := by
  unfold bytesCmp
  rw [List.compareLex_cons_cons]

/-- The order of byte strings of one length is the order of their bits. -/
theorem bytesCmp_bits : ∀ {a b : List Byte}, a.length = b.length → bytesCmp a b = lexBits (bytesToBits a) (bytesToBits b)
  | [], [], _ => rfl
  | [], _ :: _, h => by simp at h
  | _ :: _, [], h => by simp at h
  | x :: xs, y :: ys, h => by
    rw [bytesCmp_cons, bytesToBits_cons, bytesToBits_cons, lexBits_append (by simp), byte_cmp, bytesCmp_bits (a := xs) (b := ys) (by simpa using h)]
    cases lexBits (wordBits x) (wordBits y) <;> rfl

theorem lexBits_eq : ∀ {a b : Bits}, lexBits a b = .eq ↔ a = b
  | [], [] => by simp [lexBits]
  | [], _ :: _ => by simp [lexBits]
  | _ :: _, [] => by simp [lexBits]
  | x :: xs, y :: ys => by
    have ih := lexBits_eq (a := xs) (b := ys)
    by_cases h : x = y
    · simp [lexBits, h, ih]
    · cases y <;> simp [lexBits, h]

instance : Std.LawfulEqCmp (fun x y : Byte => compare x.toNat y.toNat) where
  eq_of_compare {a b} h := BitVec.eq_of_toNat_eq (Nat.compare_eq_eq.mp h)
  compare_self := by simp
instance : Std.TransCmp (fun x y : Byte => compare x.toNat y.toNat) := inferInstanceAs (Std.TransCmp (compareOn BitVec.toNat))

theorem bytesCmp_eq {a b : List Byte} : bytesCmp a b = .eq ↔ a = b := by
  unfold bytesCmp
  exact Std.LawfulEqCmp.compare_eq_iff_eq (cmp := List.compareLex (fun x y : Byte => compare x.toNat y.toNat))

instance : Std.TransCmp bytesCmp := inferInstanceAs (Std.TransCmp (List.compareLex (fun x y : Byte => compare x.toNat y.toNat)))

/-- All bits of the buffer of a builder: the stored ones, then zeroes. -/
theorem buffer_bits {b : DataBuilder} (hb : b.WF) : bytesToBits b.data = b.bits ++ List.replicate (1024 - b.bitLen) false := by
  have hle := hb.le
  have hm : maxBitLen = 1023 := rfl
  apply List.ext_getElem
  · simp [hb.len, DataBuilder.bits]; omega
  · intro i h1 h2
    have e1 : (bytesToBits b.data)[i] = bitAt b.data i := by simp [bytesToBits]
    rw [e1, List.getElem_append]
    split
    · rename_i h
      simp [DataBuilder.bits]
    · rename_i h
      rw [DataBuilder.bits_length] at h
      rw [List.getElem_replicate, hb.tail i (by omega)]

theorem buffer_cmp {a b : DataBuilder} (ha : a.WF) (hb : b.WF) (h : a.bitLen = b.bitLen) : bytesCmp a.data b.data = lexBits a.bits b.bits := by
  rw [bytesCmp_bits (by rw [ha.len, hb.len]), buffer_bits ha, buffer_bits hb, lexBits_append (by simp [DataBuilder.bits_length, h]), h]
  have : lexBits (List.replicate (1024 - b.bitLen) false) (List.replicate (1024 - b.bitLen) false) = .eq := lexBits_eq.mpr rfl
  rw [this]
  cases lexBits a.bits b.bits <;> rfl

theorem refsCmp_lex (hash : ρ → List Byte) : ∀ {a b : List ρ}, a.length = b.length → refsCmp hash a b = List.compareLex bytesCmp (a.map hash) (b.map hash)
  | [], [], _ => rfl
  | [], _ :: _, h => by simp at h
  | _ :: _, [], h => by simp at h
  | x :: xs, y :: ys, h => by
    simp only [refsCmp, List.map_cons, List.compareLex_cons_cons]
    rw [refsCmp_lex hash (a := xs) (b := ys) (by simpa using h), then_match]

theorem builderCmp_lex (hash : ρ → List Byte) (a b : CellB ρ) : builderCmp hash a b =
    compareLex (compareOn (fun a : CellB ρ => a.inner.bitLen)) (compareLex (compareOn (fun a : CellB ρ => a.refs.length))
      (compareLex (fun a b => bytesCmp a.inner.data b.inner.data) (fun a b => List.compareLex bytesCmp (a.refs.map hash) (b.refs.map hash)))) a b := by
  simp only [builderCmp, compareLex, compareOn]
  simp only [then_match]
  by_cases h : a.refs.length = b.refs.length
  · rw [refsCmp_lex hash h]
  · have : compare a.refs.length b.refs.length ≠ .eq := fun e => h (Nat.compare_eq_eq.mp e)
    cases e : compare a.refs.length b.refs.length <;> simp_all

instance (f : CellB ρ → List Byte) : Std.TransCmp (fun a b : CellB ρ => bytesCmp (f a) (f b)) where
  eq_swap := Std.OrientedCmp.eq_swap (cmp := bytesCmp)
  isLE_trans := Std.TransCmp.isLE_trans (cmp := bytesCmp)
instance (f : CellB ρ → List (List Byte)) : Std.TransCmp (fun a b : CellB ρ => List.compareLex bytesCmp (f a) (f b)) where
  eq_swap := Std.OrientedCmp.eq_swap (cmp := List.compareLex bytesCmp)
  isLE_trans := Std.TransCmp.isLE_trans (cmp := List.compareLex bytesCmp)

theorem builderCmp_trans (hash : ρ → List Byte) : Std.TransCmp (builderCmp hash) := by
  have : builderCmp hash = _ := funext fun a => funext fun b => builderCmp_lex hash a b
  rw [this]
  infer_instance

theorem lookup_some_mem {K V : Type} [DecidableEq K] : ∀ {l : List (K × V)} {k : K} {v : V}, l.lookup k = some v → (k, v) ∈ l
  | [], _, _, h => by simp at h
  | (j, w) :: l, k, v, h => by
    rw [List.lookup_cons] at h
    by_cases e : k = j
    · subst e; simp at h; subst h; simp
    · have : (k == j) = false := by simp [e]
      rw [this] at h
      exact List.mem_cons_of_mem _ (lookup_some_mem h)

theorem lookup_of_mem {K V : Type} [DecidableEq K] : ∀ {l : List (K × V)}, (l.map (·.1)).Nodup → ∀ {k : K} {v : V}, (k, v) ∈ l → l.lookup k = some v
  | [], _, _, _, h => by simp at h
  | (j, w) :: l, nd, k, v, h => by
    rw [List.map_cons, List.nodup_cons] at nd
    rw [List.lookup_cons]
    rcases List.mem_cons.mp h with hm | hm
    · cases hm; simp
    · have : (k == j) = false := by
        simp only [beq_eq_false_iff_ne]
        intro e
        subst e
        exact nd.1 (List.mem_map.mpr ⟨_, hm, rfl⟩)
      rw [this]
      exact lookup_of_mem nd.2 hm

end Verif.Compare
