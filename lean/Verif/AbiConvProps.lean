import Verif.AbiConvBack
/-!
# What conversion to and from ABI values preserves (C80)
-/
set_option linter.unusedVariables false
set_option linter.unusedSimpArgs false
namespace Verif
namespace Abi

/-! ### Specification -/

/-- A value that can be stored: numbers are in the range of the ABI type, not only of the integer that holds them. -/
def RKey.Fits : (k : RKey) → k.El → Prop
  | .hash, d => List.length d = 32
  | .split, v => v ≠ 0 ∧ Below (2 ^ 5) v
  | .uint9, v => Below (2 ^ 9) v
  | .uint12, v => Below (2 ^ 12) v
  | .uint15, v => Below (2 ^ 15) v
  | .intAddr, a => IntAddr.Ok a
  | .stdAddr, a => IntAddr.Ok (.std a)
  | .varAddr, a => IntAddr.Ok (.var a)
  | _, _ => True

/-- The entries of a map: in the order of their keys, which have the length of their type (an address must be a standard address without anycast), and at
least one before version 2.2. -/
def MapFits {κ α : Type} (ver : Ver) (key : κ → PVal) (n : Nat) (P : κ → Prop) (Q : α → Prop) (l : List (κ × α)) : Prop :=
  (l.map (·.1)).Pairwise (fun a b => natOfBits (key a).bits < natOfBits (key b).bits) ∧ (ver.useMax = false → l ≠ []) ∧
    ∀ e ∈ l, (key e.1).bits.length = n ∧ P e.1 ∧ Q e.2

mutual
/-- A value that can be stored; there are no arrays of fixed length other than bytes and no empty tuples. -/
def RTy.Fits (ver : Ver) : (t : RTy) → t.El → Prop
  | .plain k, v => k.Fits v
  | .varuint24, v => Below (2 ^ 24) v
  | .varuint56, v => Below (2 ^ 56) v
  | .tokens, v => Below (2 ^ 120) v
  | .cell, _ => True
  | .bytes, _ => True
  | .string, d => utf8 d = true
  | .option t, v => IfAny (t.Fits ver) v
  | .vec t, l => List.length l < 2 ^ 32 ∧ EachOf (t.Fits ver) l
  | .array t n, l => t.isU8 = true ∧ List.length l = n ∧ EachOf t.Wf l
  | .map k t, l => MapFits ver k.intoPlain k.plainType.bits k.Fits (t.Fits ver) l
  | .tuple ts, v => ts ≠ .nil ∧ ts.Fits ver v
  | .struct ts, v => ts ≠ .nil ∧ ts.Fits ver v
  | .boxed t, v => t.Fits ver v
def RTys.Fits (ver : Ver) : (ts : RTys) → ts.El → Prop
  | .nil, _ => True
  | .cons _ t r, v => t.Fits ver v.1 ∧ r.Fits ver v.2
end

/-! ### Lemmas -/

theorem key_fits_wf (k : RKey) (x : k.El) (h : k.Fits x) : k.Wf x := by
  cases k with
  | hash => exact h
  | split => exact ⟨h.1, Nat.lt_of_lt_of_le h.2 (by decide)⟩
  | uint9 => exact Nat.lt_of_lt_of_le h (by decide)
  | uint12 => exact Nat.lt_of_lt_of_le h (by decide)
  | uint15 => exact Nat.lt_of_lt_of_le h (by decide)
  | _ => trivial

theorem map_fits_wf {ver : Ver} {k : RKey} {t : RTy} {n : Nat} {l : List (k.El × t.El)} (h : MapFits ver k.intoPlain n k.Fits (t.Fits ver) l)
    (ih : ∀ x : t.El, t.Fits ver x → t.Wf x) : MapOf k.Wf t.Wf l := by
  refine ⟨h.1.imp ?_, fun e he => ⟨key_fits_wf k e.1 (h.2.2 e he).2.1, ih e.2 (h.2.2 e he).2.2⟩⟩
  intro a b hab e
  subst e
  exact Nat.lt_irrefl _ hab

mutual
theorem fits_wf {ver : Ver} : ∀ (t : RTy) (x : t.El), t.Fits ver x → t.Wf x
  | .plain k, x, h => key_fits_wf k x h
  | .varuint24, x, h => Nat.lt_of_lt_of_le h (by decide)
  | .varuint56, x, h => Nat.lt_of_lt_of_le h (by decide)
  | .tokens, x, h => Nat.lt_of_lt_of_le h (by decide)
  | .cell, _, _ => trivial
  | .bytes, _, _ => trivial
  | .string, _, h => h
  | .option t, v, h => fun x hx => fits_wf t x (h x hx)
  | .vec t, l, h => fun x hx => fits_wf t x (h.2 x hx)
  | .array t n, l, h => h.2
  | .map k t, l, h => map_fits_wf h (fun x => fits_wf t x)
  | .tuple ts, v, h => fit_wf ts v h.2
  | .struct ts, v, h => fit_wf ts v h.2
  | .boxed t, v, h => fits_wf t v h
theorem fit_wf {ver : Ver} : ∀ (ts : RTys) (x : ts.El), ts.Fits ver x → ts.Wf x
  | .nil, _, _ => trivial
  | .cons _ t r, v, h => ⟨fits_wf t v.1 h.1, fit_wf r v.2 h.2⟩
end

/-- Both conditions for storing a value. -/
def Storable (ver : Ver) (v : Val) : Prop := Good ver v ∧ Simple ver v

theorem Storable.regular {ver : Ver} {v : Val} (h : Storable ver v) : Regular ver v := by
  cases hu : ver.useMax with
  | true => exact Or.inl hu
  | false => exact Or.inr (Or.inl (simple_maps hu v h.2))

theorem W.le (w : W) : 1 ≤ w.bits ∧ w.bits ≤ 1023 := by cases w <;> decide

theorem plain_good (k : RKey) (x : k.El) (h : k.Fits x) : (k.intoPlain x).Good := by
  cases k with
  | uint w => exact ⟨w.le.2, BitVec.isLt x⟩
  | int w => exact ⟨w.le.2, toInt_fits x⟩
  | hash =>
    refine ⟨by decide, ?_⟩
    have := Vset.beNat_lt x
    have hl : List.length x = 32 := h
    rw [hl] at this
    exact Nat.lt_of_lt_of_le this (by decide)
  | split => exact ⟨by decide, h.2⟩
  | uint9 => exact ⟨by decide, h⟩
  | uint12 => exact ⟨by decide, h⟩
  | uint15 => exact ⟨by decide, h⟩
  | bool => trivial
  | intAddr => exact h
  | stdAddr => exact h
  | varAddr => exact h

theorem key_good {ver : Ver} (k : RKey) (x : k.El) (h : k.Fits x) : Storable ver (k.into x) := by
  cases k with
  | uint w => exact ⟨⟨w.le.1, w.le.2, BitVec.isLt x⟩, trivial⟩
  | int w => exact ⟨⟨w.le.1, w.le.2, toInt_fits x⟩, trivial⟩
  | hash => exact ⟨⟨by decide, plain_good .hash x h⟩, trivial⟩
  | split => exact ⟨⟨by decide, by decide, h.2⟩, trivial⟩
  | uint9 => exact ⟨⟨by decide, by decide, h⟩, trivial⟩
  | uint12 => exact ⟨⟨by decide, by decide, h⟩, trivial⟩
  | uint15 => exact ⟨⟨by decide, by decide, h⟩, trivial⟩
  | bool => exact ⟨trivial, trivial⟩
  | intAddr => exact ⟨h, trivial⟩
  | stdAddr => exact ⟨h, trivial⟩
  | varAddr => exact ⟨h, trivial⟩

theorem varFits {n v : Nat} (hn : 2 ≤ n) (hn' : lenBits n + (n - 1) * 8 ≤ 1023) (h : v < 2 ^ (8 * (n - 1))) : VarFits n v := by
  have hb := Big.bitLen_le.mpr h
  have hl := signed_len (x := (v : Int)) (by omega)
  rw [Int.natAbs_natCast] at hl
  have h1 : (signedBytesBe (v : Int)).length ≤ n - 1 := by rw [hl]; omega
  refine ⟨h1, ?_⟩
  have := Nat.mul_le_mul_right 8 h1
  omega

theorem inside {ver : Ver} (hv : 2 ≤ ver.major) (n : Nat) (t : Ty) : Inside ver n t := fun _ h => by omega

theorem elems_good {ver : Ver} {t : Ty} {α : Type} {f : α → Val} : ∀ l : List α, (∀ x ∈ l, (f x).type = t ∧ Storable ver (f x)) →
    GoodElems ver t (Elems.ofList (l.map f)) ∧ SimpleElems ver (Elems.ofList (l.map f))
  | [], _ => ⟨trivial, trivial⟩
  | x :: r, h => by
    have h1 := h x List.mem_cons_self
    have h2 := elems_good r (fun y hy => h y (List.mem_cons_of_mem _ hy))
    exact ⟨⟨h1.1, h1.2.1, h1.2.regular, h2.1⟩, h1.2.2, h2.2⟩

theorem entries_good {ver : Ver} {k : RKey} {t : Ty} {α : Type} {f : α → Val} : ∀ l : List (k.El × α),
    (∀ e ∈ l, (k.intoPlain e.1).bits.length = k.plainType.bits ∧ k.Fits e.1 ∧ (f e.2).type = t ∧ Storable ver (f e.2)) →
    GoodEntries ver k.plainType t (Entries.ofList (l.map fun e => (k.intoPlain e.1, f e.2))) ∧
      SimpleEntries ver (Entries.ofList (l.map fun e => (k.intoPlain e.1, f e.2)))
  | [], _ => ⟨trivial, trivial⟩
  | e :: r, h => by
    obtain ⟨a, b, c, d⟩ := h e List.mem_cons_self
    have h2 := entries_good r (fun y hy => h y (List.mem_cons_of_mem _ hy))
    refine ⟨⟨plain_type k e.1, plain_good k e.1 b, c, d.1, d.regular, h2.1⟩, ?_, d.2, h2.2⟩
    rw [a]
    show _ = (k.intoPlain e.1).type.bits
    rw [plain_type]

theorem plainType_le (k : RKey) : k.plainType.bits ≤ 1011 := by
  cases k with
  | uint w => cases w <;> decide
  | int w => cases w <;> decide
  | _ => decide

theorem map_good {ver : Ver} (hv : 2 ≤ ver.major) {k : RKey} {t : RTy} {l : List (k.El × t.El)} (h : MapFits ver k.intoPlain k.plainType.bits k.Fits (t.Fits ver) l)
    (hw : MapOf k.Wf t.Wf l) (ih : ∀ x : t.El, t.Fits ver x → Storable ver (t.into x)) : Storable ver ((RTy.map k t).into l) := by
  rw [into_map hw]
  have h1 := entries_good (ver := ver) (t := t.type) (f := t.into) l (fun e he =>
    ⟨(h.2.2 e he).1, (h.2.2 e he).2.1, into_type t e.2 (hw.2 e he).2, ih e.2 (h.2.2 e he).2.2⟩)
  refine ⟨⟨plainType_le k, inside hv _ _, h1.1, ?_⟩, ?_, h1.2⟩
  · rw [Entries.keys_ofList, List.map_map]
    have e : ((fun e : PVal × Val => e.1) ∘ fun e : k.El × t.El => (k.intoPlain e.1, t.into e.2)) = k.intoPlain ∘ (·.1) := rfl
    rw [e, ← List.map_map, List.pairwise_map]
    exact h.1
  · intro hu
    have := h.2.1 hu
    cases l with
    | nil => exact absurd rfl this
    | cons => rfl

theorem vec_good {ver : Ver} (hv : 2 ≤ ver.major) {t : RTy} {l : List t.El} (hl : l.length < 2 ^ 32) (ih : ∀ x ∈ l, (t.into x).type = t.type ∧ Storable ver (t.into x)) :
    Storable ver ((RTy.vec t).into l) := by
  rw [into_vec]
  rcases asBytes_eq t l with ⟨h, d, e, _⟩ | ⟨h, e⟩
  · rw [e]; exact ⟨trivial, trivial⟩
  · rw [e]
    have := elems_good l ih
    exact ⟨⟨by rw [Elems.length_ofList, List.length_map]; exact hl, inside hv _ _, this.1⟩, this.2⟩

theorem array_good {ver : Ver} {t : RTy} {n : Nat} {l : List t.El} (h : t.isU8 = true) : Storable ver ((RTy.array t n).into l) := by
  rw [into_array]
  rcases asBytes_eq t l with ⟨_, d, e, _⟩ | ⟨h', e⟩
  · rw [e]; exact ⟨trivial, trivial⟩
  · rw [h] at h'; cases h'

mutual
theorem storable {ver : Ver} (hv : 2 ≤ ver.major) : ∀ (t : RTy) (x : t.El), t.Fits ver x → Storable ver (t.into x)
  | .plain k, x, h => key_good k x h
  | .varuint24, x, h => ⟨⟨by decide, fun _ => by decide⟩, varFits (by decide) (by decide) h⟩
  | .varuint56, x, h => ⟨⟨by decide, fun _ => by decide⟩, varFits (by decide) (by decide) h⟩
  | .tokens, x, h => ⟨Nat.le_of_lt_succ (Nat.lt_of_lt_of_le h (by decide +kernel)), trivial⟩
  | .cell, _, _ => ⟨trivial, trivial⟩
  | .bytes, _, _ => ⟨trivial, trivial⟩
  | .string, _, h => ⟨h, trivial⟩
  | .option t, none, h => ⟨trivial, trivial⟩
  | .option t, some v, h => by
    have ih := storable hv t v (h v rfl)
    have ht := into_type t v (fits_wf t v (h v rfl))
    have hf := simple_fixed (t.into v) ih.2
    rw [ht] at hf
    refine ⟨⟨ht, ih.1, ?_⟩, ih.2⟩
    split
    · rename_i hs
      have : t.type.max.bits < 1023 ∧ t.type.max.refs < 4 := of_decide_eq_true hs
      omega
    · exact ih.regular
  | .vec t, l, h => vec_good hv h.1 (fun x hx => ⟨into_type t x (fits_wf t x (h.2 x hx)), storable hv t x (h.2 x hx)⟩)
  | .array t n, l, h => array_good h.1
  | .map k t, l, h => map_good hv h (map_fits_wf h (fun x => fits_wf t x)) (fun x => storable hv t x)
  | .tuple ts, v, h => by
    have ih := storables hv ts v h.2
    refine ⟨⟨?_, ih.1⟩, ih.2⟩
    cases ts with
    | nil => exact absurd rfl h.1
    | cons => exact fun e => by cases e
  | .struct ts, v, h => by
    have ih := storables hv ts v h.2
    refine ⟨⟨?_, ih.1⟩, ih.2⟩
    cases ts with
    | nil => exact absurd rfl h.1
    | cons => exact fun e => by cases e
  | .boxed t, v, h => storable hv t v h
theorem storables {ver : Ver} (hv : 2 ≤ ver.major) : ∀ (ts : RTys) (x : ts.El), ts.Fits ver x → GoodItems ver (ts.into x) ∧ SimpleItems ver (ts.into x)
  | .nil, _, _ => ⟨trivial, trivial⟩
  | .cons _ t r, v, h => by
    have h1 := storable hv t v.1 h.1
    have h2 := storables hv r v.2 h.2
    exact ⟨⟨h1.1, h2.1⟩, h1.2, h2.2⟩
end

mutual
theorem hasType_self : ∀ v : Val, hasType v v.type = true
  | .uint .. => by simp [hasType, Val.type]
  | .int .. => by simp [hasType, Val.type]
  | .varuint .. => by simp [hasType, Val.type]
  | .varint .. => by simp [hasType, Val.type]
  | .bool _ => rfl
  | .cell _ => rfl
  | .address _ => rfl
  | .bytes _ => rfl
  | .fixedBytes _ => by simp [hasType, Val.type]
  | .string _ => rfl
  | .token _ => rfl
  | .tuple items => haveTypes_self items
  | .array .. => by simp [hasType, Val.type]
  | .fixedArray .. => by simp [hasType, Val.type]
  | .map .. => by simp [hasType, Val.type]
  | .absent _ => by simp [hasType, Val.type]
  | .present .. => by simp [hasType, Val.type]
  | .ref v => hasType_self v
theorem haveTypes_self : ∀ l : Items, haveTypes l l.types = true
  | .nil => rfl
  | .cons _ v r => by
    show (hasType v v.type && haveTypes r r.types) = true
    rw [hasType_self v, haveTypes_self r]
    rfl
end

def Items.app : Items → Items → Items
  | .nil, b => b
  | .cons n v r, b => .cons n v (r.app b)

theorem Items.length_app : ∀ a b : Items, (a.app b).length = a.length + b.length
  | .nil, b => by simp [Items.app, Items.length]
  | .cons n v r, b => by rw [Items.app, Items.length, Items.length_app r b, Items.length]; omega

theorem froms_tail : ∀ (ts : RTys) (l extra : Items), l.length = ts.length → ts.from (l.app extra) = ts.from l
  | .nil, l, extra, _ => by cases l <;> rfl
  | .cons _ t r, .nil, _, h => by cases h
  | .cons _ t r, .cons _ v l, extra, h => by
    show (t.from v >>= fun x => r.from (l.app extra) >>= fun l => Except.ok (x, l)) = (t.from v >>= fun x => r.from l >>= fun l => Except.ok (x, l))
    rw [froms_tail r l extra (by injection h)]

/-! ### C80 -/

/-- **C80.** The ABI value of a Rust value has the ABI type of its Rust type, and is converted back to the same value. -/
theorem C80_round (t : RTy) (x : t.El) (h : t.Wf x) :
    (t.into x).type = t.type ∧ hasType (t.into x) t.type = true ∧ (t.readable = true → t.from (t.into x) = .ok x) :=
  ⟨into_type t x h, into_type t x h ▸ hasType_self (t.into x), fun hr => round t x hr h⟩

/-- Different Rust values have different ABI values. -/
theorem C80_injective (t : RTy) (x y : t.El) (hr : t.readable = true) (hx : t.Wf x) (hy : t.Wf y) (h : t.into x = t.into y) : x = y := by
  have h1 := round t x hr hx
  rw [h, round t y hr hy] at h1
  injection h1 with h1
  exact h1.symm

/-- Every ABI value of the ABI type of a Rust type with numbers in their ranges is the value of a Rust value: nothing is refused or changed. -/
theorem C80_onto (t : RTy) (v : Val) (ht : t.total = true) (h : v.type = t.type) (hv : Typed v) : ∃ x, t.from v = .ok x ∧ t.into x = v ∧ t.Wf x :=
  comes t v ht h hv

/-- As keys of a map, values have the same types and values. -/
theorem C80_plain (k : RKey) (x : k.El) : k.plainType.full = k.type ∧ (k.intoPlain x).full = k.into x ∧ (k.intoPlain x).type = k.plainType ∧
    (k.readable = true → k.Wf x → k.fromPlain (k.intoPlain x) = .ok x) :=
  ⟨by cases k <;> rfl, by cases k <;> rfl, plain_type k x, plain_round k x⟩

/-- A Rust value can be put into cells; what is read with the ABI type of its Rust type is its ABI value, from which the Rust value is restored. -/
theorem C80_cells (acc : Cell → Bool) (hacc : ∀ c, acc c = true) (ver : Ver) (hv : 2 ≤ ver.major) (t : RTy) (x : t.El) (h : t.Fits ver x) :
    ∃ c, encode acc ver (t.into x) = .ok c ∧ ∀ part, decode ver part t.type c = .ok (t.into x) ∧ (t.readable = true → (decode ver part t.type c >>= t.from) = .ok x) := by
  have hs := storable hv t x h
  have hw := fits_wf t x h
  obtain ⟨c, h1, h2⟩ := C74_total acc hacc ver (by omega) (t.into x) hs.1 hs.2
  refine ⟨c, h1, fun part => ?_⟩
  have h3 := h2 part
  rw [into_type t x hw] at h3
  refine ⟨h3, fun hr => ?_⟩
  rw [h3]
  exact round t x hr hw

/-- A struct is also read from a tuple with further items, a tuple is not. -/
theorem C80_tail (ts : RTys) (x : ts.El) (hr : ts.readable = true) (h : ts.Wf x) (extra : Items) (he : extra ≠ .nil) :
    (RTy.struct ts).from (.tuple ((ts.into x).app extra)) = .ok x ∧ (RTy.tuple ts).from (.tuple ((ts.into x).app extra)) = .error .invalidData := by
  have hl := intos_length ts x
  refine ⟨(froms_tail ts _ extra hl).trans (rounds ts x hr h), if_neg ?_⟩
  rw [Items.length_app, hl]
  cases extra with
  | nil => exact absurd rfl he
  | cons => rw [Items.length]; omega

/-- A number that does not fit into a hash is cut off without an error, where the integer types refuse it. -/
theorem C80_hash_cut (v : Nat) : RKey.hash.from (.uint 256 (v + 2 ^ 256)) = RKey.hash.from (.uint 256 v) ∧
    ∀ w : W, 2 ^ w.bits ≤ v → (RKey.uint w).from (.uint w.bits v) = .error .intOverflow := by
  constructor
  · rw [hash_full, hash_full]
    have h1 := Vset.beBytes_beNat (toHash (v + 2 ^ 256))
    have h2 := Vset.beBytes_beNat (toHash v)
    rw [toHash_length, toHash_nat, Nat.add_mod_right] at h1
    rw [toHash_length, toHash_nat] at h2
    rw [← h1, h2]
  · intro w h
    exact (if_pos rfl).trans (if_neg (Nat.not_lt.mpr h))

/-- The range of a variable-length integer is not checked: the value is accepted, and cannot be stored. -/
theorem C80_range : RTy.varuint24.from (.varuint 4 (2 ^ 24)) = .ok (2 ^ 24 : Nat) ∧ failure (encode anyCell ⟨2, 3⟩ (RTy.varuint24.into (2 ^ 24 : Nat))) = some .intOverflow := by
  constructor
  · rfl
  · decide +kernel

/-- Other ABI values that are accepted: arrays and bytes of fixed length, and numbers of 16 bytes as tokens. -/
theorem C80_other_forms : (∀ (t : RTy) (n : Nat) (l : List t.El), t.readable = true → EachOf t.Wf l → (RTy.vec t).from ((RTy.array t n).into l) = .ok l) ∧
    (∀ d, RTy.bytes.from (.fixedBytes d) = .ok d) ∧
    ∀ v : Nat, RTy.tokens.from (.varuint 16 v) = if v < 2 ^ 128 then .ok v else .error .intOverflow := by
  refine ⟨fun t n l hr h => ?_, fun d => rfl, fun v => rfl⟩
  rw [into_array]
  rcases asBytes_eq t l with ⟨h', d, e, hd, _⟩ | ⟨h', e⟩
  · rw [e]
    refine (show (RTy.vec t).from (.fixedBytes d) = if t.isU8 then .ok (t.ofBytes d) else .error .invalidData from rfl).trans ?_
    rw [if_pos h', hd]
  · rw [e]
    refine (show (RTy.vec t).from (.fixedArray t.type (Elems.ofList (l.map t.into))) = if t.isU8 then .error .invalidData else (Elems.ofList (l.map t.into)).each t.from
      from rfl).trans ?_
    rw [if_neg (by rw [h']; decide)]
    exact each_ofList l (fun x hx => round t x hr (h x hx))

/-- Keys that become the same hash: the later value is kept, the earlier one is lost. -/
theorem C80_hash_keys (k : PTy) (t : Ty) (v : Nat) (a b : Bool) :
    (RTy.map .hash (.plain .bool)).from (.map k t (.cons (.uint 256 v) (.bool a) (.cons (.uint 256 (v + 2 ^ 256)) (.bool b) .nil))) = .ok [(toHash v, b)] := by
  have h : RKey.hash.fromPlain (.uint 256 (v + 2 ^ 256)) = .ok (toHash v) := by
    have := (C80_hash_cut v).1
    rw [hash_full, hash_full] at this
    rw [hash_plain]
    exact this
  show Entries.each RKey.hash.fromPlain (RTy.plain .bool).from _ [] = _
  rw [Entries.each, hash_plain]
  show Entries.each RKey.hash.fromPlain (RTy.plain .bool).from (.cons (.uint 256 (v + 2 ^ 256)) (.bool b) .nil) [(toHash v, a)] = _
  rw [Entries.each, h]
  show Except.ok (mapPut (toHash v) b [(toHash v, a)]) = _
  rw [mapPut, if_pos rfl]
  rfl

/-! ### Examples -/

/-- `struct { id: u32, owner: Option<HashBytes>, values: BTreeMap<u8, Vec<u8>>, pair: (bool, Vec<i16>) }` -/
def exStruct : RTy := .struct (.cons "id" (.plain (.uint .w32)) (.cons "owner" (.option (.plain .hash)) (.cons "values"
  (.map (.uint .w8) (.vec (.plain (.uint .w8)))) (.cons "pair" (.ofTuple [.plain .bool, .vec (.plain (.int .w16))]) .nil))))

def exStructVal : exStruct.El := ((7 : BitVec 32), some (List.replicate 32 (0xab : Byte)), [((1 : BitVec 8), [(2 : Byte), (3 : Byte)]), ((5 : BitVec 8), [])],
  (true, [(0xffff : BitVec 16), (12 : BitVec 16)], ()), ())

theorem exStruct_fits : exStruct.Fits ⟨2, 3⟩ exStructVal := by
  refine ⟨(fun e => by cases e), trivial, ?_, ?_, ⟨(fun e => by cases e), trivial, ⟨?_, fun x _ => trivial⟩, trivial⟩, trivial⟩
  · intro x hx
    cases hx
    exact List.length_replicate
  · refine ⟨?_, (fun h => by cases h), ?_⟩
    · decide +kernel
    · intro e he
      refine ⟨natBits_length _ _, trivial, ?_, fun x _ => trivial⟩
      have : e ∈ [((1 : BitVec 8), [(2 : Byte), 3]), ((5 : BitVec 8), [])] := he
      rcases List.mem_cons.mp this with rfl | h
      · decide
      · rcases List.mem_cons.mp h with rfl | h
        · decide
        · cases h
  · decide

example : ∃ c, encode anyCell ⟨2, 3⟩ (exStruct.into exStructVal) = .ok c ∧ ∀ part, decode ⟨2, 3⟩ part exStruct.type c = .ok (exStruct.into exStructVal) ∧
    (exStruct.readable = true → (decode ⟨2, 3⟩ part exStruct.type c >>= exStruct.from) = .ok exStructVal) :=
  C80_cells anyCell (fun _ => rfl) ⟨2, 3⟩ (by decide) exStruct exStructVal exStruct_fits

example : exStruct.readable = true ∧ exStruct.total = true := ⟨rfl, rfl⟩

/-- The bytes of a vector of `u8` are `bytes`, those of an array are `fixedbytes`; a vector of boxed bytes is an array. -/
example : (RTy.vec (.plain (.uint .w8))).type = .bytes ∧ (RTy.array (.plain (.uint .w8)) 4).type = .fixedBytes 4 ∧
    (RTy.vec (.boxed (.plain (.uint .w8)))).type = .array (.uint 8) := ⟨rfl, rfl, rfl⟩

example : Typed (.map (.uint 8) .bytes (.cons (.uint 8 1) (.bytes [2, 3]) (.cons (.uint 8 5) (.bytes []) .nil))) :=
  ⟨by decide, ⟨rfl, by show 1 < 2 ^ 8; decide⟩, ⟨rfl, trivial⟩, ⟨rfl, by show 5 < 2 ^ 8; decide⟩, ⟨rfl, trivial⟩, trivial⟩

end Abi
end Verif
