import Verif.FormsProps
/-
Containers of cells in formats of `serde` (`boc/serde.rs`, `SerdeBoc`).
-/
set_option linter.unusedVariables false
namespace Verif
namespace Form

/-! ### Model -/

/-- The types with `SerializeAsBoc` and `DeserializeAsBoc` (`boc/serde.rs:68-190`, `194-321`): cells, pointers (`Box`; `Rc`, `Arc` and `&` are only written),
`Option`, `Vec` (slices are only written), arrays, maps. -/
inductive Shape where
  | cell
  | ptr (b : Shape)
  | opt (b : Shape)
  | vec (b : Shape)
  | arr (n : Nat) (b : Shape)
  | map (b : Shape)

/-- The values of such a type. Maps are lists of entries in the order of iteration, with keys from `κ`; arrays are lists. -/
def Shape.Val (κ : Type) : Shape → Type
  | .cell => Cell
  | .ptr b => b.Val κ
  | .opt b => Option (b.Val κ)
  | .vec b => List (b.Val κ)
  | .arr _ b => List (b.Val κ)
  | .map b => List (κ × b.Val κ)

/-- Arrays: `boc/serde.rs:135-168` (a tuple of the elements), `247-255` (an error for another number of elements). The code has it for lengths up to 32. -/
def arr {α : Type} (n : Nat) (F : Form α) : Form (List α) where
  ser r l := if l.length = n then (vec F).ser r l else none
  de r x := match (vec F).de r x with
    | some l => if l.length = n then some l else none
    | none => none

/-- `BTreeMap::insert`, `HashMap::insert`: replaces the value of a key that is there. -/
def insertKey {κ α : Type} [DecidableEq κ] (l : List (κ × α)) (k : κ) (v : α) : List (κ × α) :=
  match l with
  | [] => [(k, v)]
  | e :: l => if e.1 = k then (k, v) :: l else e :: insertKey l k v

/-- The loop of `boc/serde.rs:296-298`. -/
def readEntries {κ α : Type} [DecidableEq κ] (K : Form κ) (F : Form α) (r : Bool) : List (SV × SV) → List (κ × α) → Option (List (κ × α))
  | [], l => some l
  | (k, v) :: es, l => match K.de r k, F.de r v with
    | some k, some v => readEntries K F r es (insertKey l k v)
    | _, _ => none

/-- Maps: `boc/serde.rs:170-190`, `257-321`. The capacity reserved for them (`323-336`) is not modelled. -/
def entries {κ α : Type} [DecidableEq κ] (K : Form κ) (F : Form α) : Form (List (κ × α)) where
  ser r l := (l.mapM fun (e : κ × α) => match K.ser r e.1, F.ser r e.2 with
    | some k, some v => some (k, v)
    | _, _ => none).map .map
  de r x := match x with
    | .map es => readEntries K F r es []
    | _ => none

/-- `SerdeBoc<T>` for every type (`boc/serde.rs:21-64`, `68-132`, `194-245`). -/
def boxed {κ : Type} [DecidableEq κ] (H : Hasher) (K : Form κ) : (b : Shape) → Form (b.Val κ)
  | .cell => cell H
  | .ptr b => boxed H K b
  | .opt b => opt (boxed H K b)
  | .vec b => vec (boxed H K b)
  | .arr n b => arr n (boxed H K b)
  | .map b => entries K (boxed H K b)

/-! ### Specification -/

/-- The values of the type in rust: arrays have their length, the keys of a map differ; the cells can be carried by a BOC. -/
def Proper {κ : Type} (H : Hasher) (okK : κ → Prop) : (b : Shape) → b.Val κ → Prop
  | .cell, c => Carried H c
  | .ptr b, v => Proper H okK b v
  | .opt b, o => ∀ v, o = some v → Proper H okK b v
  | .vec b, (l : List (b.Val κ)) => ∀ v ∈ l, Proper H okK b v
  | .arr n b, (l : List (b.Val κ)) => l.length = n ∧ ∀ v ∈ l, Proper H okK b v
  | .map b, (l : List (κ × b.Val κ)) => (l.map Prod.fst).Nodup ∧ ∀ e ∈ l, okK e.1 ∧ Proper H okK b e.2

/-- The types with values that are written as nothing. -/
def Shape.nullable : Shape → Bool
  | .opt _ => true
  | .ptr b => b.nullable
  | _ => false

/-- No option of an option. -/
def Shape.Simple : Shape → Prop
  | .cell => True
  | .ptr b => b.Simple
  | .opt b => b.nullable = false ∧ b.Simple
  | .vec b => b.Simple
  | .arr _ b => b.Simple
  | .map b => b.Simple

/-! ### Lemmas -/

theorem back_arr {α : Type} {F : Form α} {r : Bool} {ok : α → Prop} (h : Back F r ok) (n : Nat) : Back (arr n F) r (fun l => l.length = n ∧ ∀ v ∈ l, ok v) := by
  rintro l ⟨h1, h2⟩
  obtain ⟨x, g1, g2⟩ := back_vec h l h2
  refine ⟨x, (if_pos h1).trans g1, ?_⟩
  unfold arr
  dsimp only
  rw [g2]
  exact if_pos h1

theorem insertKey_new {κ α : Type} [DecidableEq κ] : ∀ (l : List (κ × α)) (k : κ) (v : α), k ∉ l.map Prod.fst → insertKey l k v = l ++ [(k, v)]
  | [], k, v, _ => rfl
  | e :: l, k, v, h => by
    rw [List.map_cons, List.mem_cons, not_or] at h
    unfold insertKey
    rw [if_neg (fun e => h.1 e.symm), insertKey_new l k v h.2]
    rfl

theorem back_entries {κ α : Type} [DecidableEq κ] {K : Form κ} {F : Form α} {r : Bool} {okK : κ → Prop} {ok : α → Prop} (hK : Back K r okK) (h : Back F r ok) :
    Back (entries K F) r (fun l => (l.map Prod.fst).Nodup ∧ ∀ e ∈ l, okK e.1 ∧ ok e.2) := by
  rintro l ⟨h1, h2⟩
  have main : ∃ es, (l.mapM fun (e : κ × α) => match K.ser r e.1, F.ser r e.2 with
      | some k, some v => some (k, v)
      | _, _ => none) = some es ∧ ∀ acc : List (κ × α), ((acc ++ l).map Prod.fst).Nodup → readEntries K F r es acc = some (acc ++ l) := by
    clear h1
    induction l with
    | nil => exact ⟨[], rfl, fun acc _ => by rw [List.append_nil]; rfl⟩
    | cons e l ih =>
      obtain ⟨es, g1, g2⟩ := ih (fun e he => h2 e (List.mem_cons_of_mem _ he))
      obtain ⟨o1, o2⟩ := h2 e List.mem_cons_self
      obtain ⟨k, k1, k2⟩ := hK e.1 o1
      obtain ⟨v, v1, v2⟩ := h e.2 o2
      refine ⟨(k, v) :: es, ?_, fun acc hacc => ?_⟩
      · rw [List.mapM_cons, g1, k1, v1]
        rfl
      · unfold readEntries
        rw [k2, v2]
        dsimp only
        have hnew : e.1 ∉ acc.map Prod.fst := by
          rw [List.map_append, List.map_cons] at hacc
          intro hm
          exact (List.nodup_append.mp hacc).2.2 _ hm _ List.mem_cons_self rfl
        rw [insertKey_new acc _ _ hnew, g2 _ (by rw [List.append_assoc]; exact hacc), List.append_assoc]
        rfl
  obtain ⟨es, g1, g2⟩ := main
  refine ⟨.map es, ?_, g2 [] h1⟩
  unfold entries
  dsimp only
  rw [g1]
  rfl

theorem solid_boxed {κ : Type} [DecidableEq κ] (H : Hasher) (K : Form κ) (r : Bool) : ∀ b : Shape, b.nullable = false → Solid (boxed H K b) r
  | .cell, _ => solid_cell H r
  | .ptr b, h => solid_boxed H K r b h
  | .opt b, h => nomatch h
  | .vec b, _ => fun v h => by
    obtain ⟨x, _, e⟩ := Option.map_eq_some_iff.1 (show Option.map SV.seq _ = some SV.null from h)
    cases e
  | .arr n b, _ => fun v h => by
    have h : (if List.length v = n then (List.mapM ((boxed H K b).ser r) v).map SV.seq else none) = some SV.null := h
    split at h
    · obtain ⟨x, _, e⟩ := Option.map_eq_some_iff.1 h
      cases e
    · cases h
  | .map b, _ => fun v h => by
    obtain ⟨x, _, e⟩ := Option.map_eq_some_iff.1 (show Option.map SV.map _ = some SV.null from h)
    cases e

theorem back_boxed {κ : Type} [DecidableEq κ] (H : Hasher) {K : Form κ} {okK : κ → Prop} {r : Bool} (hK : Back K r okK) : ∀ b : Shape, b.Simple → Back (boxed H K b) r (Proper H okK b)
  | .cell, _ => back_cell H r
  | .ptr b, h => back_boxed H hK b h
  | .opt b, h => back_opt (back_boxed H hK b h.2) (solid_boxed H K r b h.1)
  | .vec b, h => back_vec (back_boxed H hK b h)
  | .arr n b, h => back_arr (back_boxed H hK b h) n
  | .map b, h => back_entries hK (back_boxed H hK b h)

theorem insertKey_find {κ α : Type} [DecidableEq κ] : ∀ (l : List (κ × α)) (k j : κ) (v : α),
    (insertKey l k v).find? (fun e => e.1 = j) = if k = j then some (k, v) else l.find? (fun e => e.1 = j)
  | [], k, j, v => by
    unfold insertKey
    rw [List.find?_cons]
    by_cases h : k = j <;> simp [h]
  | e :: l, k, j, v => by
    unfold insertKey
    by_cases he : e.1 = k
    · rw [if_pos he, List.find?_cons, List.find?_cons]
      by_cases h : k = j
      · simp [h]
      · simp [h, show ¬ e.1 = j from fun x => h (he.symm.trans x)]
    · rw [if_neg he, List.find?_cons, List.find?_cons, insertKey_find l k j v]
      by_cases h : e.1 = j
      · simp [h, show ¬ k = j from fun x => he (h.trans x.symm)]
      · simp [h]

theorem insertKey_keys {κ α : Type} [DecidableEq κ] : ∀ (l : List (κ × α)) (k : κ) (v : α), (l.map Prod.fst).Nodup →
    ((insertKey l k v).map Prod.fst).Nodup ∧ ∀ j, j ∈ (insertKey l k v).map Prod.fst → j = k ∨ j ∈ l.map Prod.fst
  | [], k, v, _ => ⟨by simp [insertKey], fun j h => by simpa [insertKey] using h⟩
  | e :: l, k, v, h => by
    rw [List.map_cons, List.nodup_cons] at h
    obtain ⟨g1, g2⟩ := insertKey_keys l k v h.2
    unfold insertKey
    by_cases he : e.1 = k
    · rw [if_pos he, List.map_cons, List.map_cons, List.nodup_cons]
      exact ⟨⟨by rw [← he]; exact h.1, h.2⟩, fun j hj => by
        rcases List.mem_cons.mp hj with h1 | h1
        · exact Or.inl h1
        · exact Or.inr (List.mem_cons_of_mem _ h1)⟩
    · rw [if_neg he, List.map_cons, List.map_cons, List.nodup_cons]
      refine ⟨⟨fun hm => ?_, g1⟩, fun j hj => ?_⟩
      · rcases g2 _ hm with h1 | h1
        · exact he h1
        · exact h.1 h1
      · rcases List.mem_cons.mp hj with h1 | h1
        · exact Or.inr (h1 ▸ List.mem_cons_self)
        · rcases g2 j h1 with h2 | h2
          · exact Or.inl h2
          · exact Or.inr (List.mem_cons_of_mem _ h2)

theorem readEntries_ok {κ α : Type} [DecidableEq κ] {K : Form κ} {F : Form α} {r : Bool} : ∀ (es : List (SV × SV)) (acc l : List (κ × α)), (acc.map Prod.fst).Nodup →
    readEntries K F r es acc = some l → ∃ vs : List (κ × α), es.map (fun e => (K.de r e.1, F.de r e.2)) = vs.map (fun e => (some e.1, some e.2)) ∧
      (l.map Prod.fst).Nodup ∧ ∀ j, l.find? (fun e => e.1 = j) = match vs.reverse.find? (fun e => e.1 = j) with
        | some e => some e
        | none => acc.find? (fun e => e.1 = j)
  | [], acc, l, hn, h => by
    injection h with h
    subst h
    exact ⟨[], rfl, hn, fun j => rfl⟩
  | (k, v) :: es, acc, l, hn, h => by
    unfold readEntries at h
    cases hk : K.de r k with
    | none => rw [hk] at h; cases h
    | some k' =>
      cases hv : F.de r v with
      | none => rw [hk, hv] at h; cases h
      | some v' =>
        rw [hk, hv] at h
        dsimp only at h
        obtain ⟨vs, g1, g2, g3⟩ := readEntries_ok es _ l (insertKey_keys acc k' v' hn).1 h
        refine ⟨(k', v') :: vs, ?_, g2, fun j => ?_⟩
        · rw [List.map_cons, List.map_cons, g1, hk, hv]
        · rw [g3 j, List.reverse_cons, List.find?_append]
          cases vs.reverse.find? (fun e => decide (e.1 = j)) with
          | some e => rfl
          | none =>
            dsimp only
            rw [insertKey_find]
            by_cases hj : k' = j
            · simp [hj]
            · simp [hj]

/-! ### Property theorems -/

/-- **C93, containers of cells.** Every value of every type built from cells by pointers, options, vectors, arrays and maps comes back from what was written,
unless an option is put directly into an option. -/
theorem C93_containers {κ : Type} [DecidableEq κ] (H : Hasher) {K : Form κ} {okK : κ → Prop} (r : Bool) (hK : Back K r okK) (b : Shape) (hb : b.Simple) :
    Back (boxed H K b) r (Proper H okK b) := back_boxed H hK b hb

/-- **C93, containers of cells, reading.** Whatever is read: an array has its length, a map has no key twice and holds under each key the last value given for it,
and every element given was read. -/
theorem C93_containers_read {κ : Type} [DecidableEq κ] (H : Hasher) (K : Form κ) (r : Bool) (b : Shape) (x : SV) :
    (∀ n l, (boxed H K (.arr n b)).de r x = some l → List.length l = n ∧ (boxed H K (.vec b)).de r x = some l) ∧
    (∀ l : List (κ × b.Val κ), (boxed H K (.map b)).de r x = some l → (l.map Prod.fst).Nodup ∧
      ∃ (es : List (SV × SV)) (vs : List (κ × b.Val κ)), x = .map es ∧ es.map (fun e => (K.de r e.1, (boxed H K b).de r e.2)) = vs.map (fun e => (some e.1, some e.2)) ∧
        ∀ k, l.find? (fun e => e.1 = k) = vs.reverse.find? (fun e => e.1 = k)) := by
  refine ⟨fun n l h => ?_, fun l h => ?_⟩
  · have h : (arr n (boxed H K b)).de r x = some l := h
    unfold arr at h
    dsimp only at h
    cases hv : (vec (boxed H K b)).de r x with
    | none => rw [hv] at h; cases h
    | some l' =>
      rw [hv] at h
      dsimp only at h
      split at h
      · rename_i hl
        injection h with h
        subst h
        exact ⟨hl, hv⟩
      · cases h
  · cases x with
    | map es =>
      obtain ⟨vs, g1, g2, g3⟩ := readEntries_ok es [] l List.nodup_nil h
      refine ⟨g2, es, vs, rfl, g1, fun k => ?_⟩
      rw [g3 k]
      cases vs.reverse.find? (fun e => decide (e.1 = k)) <;> rfl
    | _ => cases h

/-- **C93, an option in an option** (finding): `Some(None)` is written like `None`, and read as `None`. -/
theorem C93_nested_option {κ : Type} [DecidableEq κ] (H : Hasher) (K : Form κ) (r : Bool) (b : Shape) :
    (boxed H K (.opt (.opt b))).ser r (some none) = some .null ∧ (boxed H K (.opt (.opt b))).de r .null = some none := ⟨rfl, rfl⟩

/-! ### Non-vacuity -/

/-- A map with a vector of optional cells under each of two keys is a proper value of a simple type. -/
example {H : Hasher} {c : Cell} (hc : Carried H c) :
    (Shape.map (.vec (.opt .cell))).Simple ∧ Proper (κ := Nat) H (fun k => k ≤ 255) (.map (.vec (.opt .cell))) [(7, [some c, none]), (2, [])] := by
  refine ⟨⟨rfl, trivial⟩, by show [7, 2].Nodup; decide, ?_⟩
  intro e he
  rcases List.mem_cons.mp he with rfl | he
  · refine ⟨show 7 ≤ 255 by decide, fun o ho => ?_⟩
    rcases List.mem_cons.mp ho with rfl | ho
    · intro v hv; injection hv with hv; subst hv; exact hc
    · rw [List.mem_singleton.mp ho]; intro v hv; cases hv
  · rw [List.mem_singleton.mp he]
    exact ⟨by decide, fun o ho => nomatch ho⟩

/-- A key given twice. -/
example : (boxed toyHasher (nat 255) (.map (.vec .cell))).de true (.map [(.num 1, .seq []), (.num 2, .seq []), (.num 1, .seq [])]) = some [(1, []), (2, [])] := rfl

end Form
end Verif
