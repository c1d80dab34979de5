import Verif.AbiConv
import Verif.AbiContractLemmas
/-!
# Lemmas about conversions
-/
set_option linter.unusedVariables false
set_option linter.unusedSimpArgs false
namespace Verif
namespace Abi

/-! ### Specification -/

def Below (n v : Nat) : Prop := v < n
def EachOf {α : Type} (P : α → Prop) (l : List α) : Prop := ∀ x ∈ l, P x
def IfAny {α : Type} (P : α → Prop) (o : Option α) : Prop := ∀ x, o = some x → P x
def MapOf {κ α : Type} (P : κ → Prop) (Q : α → Prop) (l : List (κ × α)) : Prop := (l.map (·.1)).Nodup ∧ ∀ e ∈ l, P e.1 ∧ Q e.2

/-- What the Rust type guarantees. -/
def RKey.Wf : (k : RKey) → k.El → Prop
  | .hash, d => List.length d = 32
  | .split, v => v ≠ 0 ∧ Below 256 v
  | .uint9, v => Below (2 ^ 16) v
  | .uint12, v => Below (2 ^ 16) v
  | .uint15, v => Below (2 ^ 16) v
  | _, _ => True

mutual
/-- What the Rust type guarantees: the integers inside have their width, strings are UTF-8, arrays have their length, the keys of a map differ. -/
def RTy.Wf : (t : RTy) → t.El → Prop
  | .plain k, v => k.Wf v
  | .varuint24, v => Below (2 ^ 32) v
  | .varuint56, v => Below (2 ^ 64) v
  | .tokens, v => Below (2 ^ 128) v
  | .cell, _ => True
  | .bytes, _ => True
  | .string, d => utf8 d = true
  | .option t, v => IfAny t.Wf v
  | .vec t, l => EachOf t.Wf l
  | .array t n, l => List.length l = n ∧ EachOf t.Wf l
  | .map k t, l => MapOf k.Wf t.Wf l
  | .tuple ts, v => ts.Wf v
  | .struct ts, v => ts.Wf v
  | .boxed t, v => t.Wf v
def RTys.Wf : (ts : RTys) → ts.El → Prop
  | .nil, _ => True
  | .cons _ t r, v => t.Wf v.1 ∧ r.Wf v.2
end

/-- The types with `FromPlainAbi`. -/
def RKey.readable : RKey → Bool
  | .split => false
  | .uint9 => false
  | .uint12 => false
  | .uint15 => false
  | _ => true

mutual
/-- The types with `FromAbi`. -/
def RTy.readable : RTy → Bool
  | .plain k => k.readable
  | .option t => t.readable
  | .vec t => t.readable
  | .array _ _ => false
  | .map k t => k.readable && t.readable
  | .tuple ts => ts.readable
  | .struct ts => ts.readable
  | .boxed t => t.readable
  | _ => true
def RTys.readable : RTys → Bool
  | .nil => true
  | .cons _ t r => t.readable && r.readable
end

/-! ### Bytes of numbers -/

theorem beNat_rev : ∀ l : List Byte, Boc.beNat l.reverse = Big.leNat l
  | [] => rfl
  | b :: r => by rw [List.reverse_cons, Boc.beNat_append, beNat_rev r, Big.leNat]; omega

theorem toHash_length (v : Nat) : (toHash v).length = 32 := by
  unfold toHash
  dsimp only
  split
  · rename_i h
    rw [List.length_drop]; omega
  · rename_i h
    rw [List.length_append, List.length_replicate]; omega

theorem toHash_nat (v : Nat) : Boc.beNat (toHash v) = v % 2 ^ 256 := by
  have e : (2 : Nat) ^ 256 = 256 ^ 32 := by decide
  have hs := (Big.toBytesLe_spec v).2
  have hl := Big.leNat_lt (Big.toBytesLe v)
  rw [← List.reverse_reverse (toHash v), beNat_rev, e]
  unfold toHash
  dsimp only
  split
  · rename_i h
    rw [List.length_reverse] at h
    rw [List.reverse_drop, List.reverse_reverse, List.length_reverse, Big.leNat_take, hs]
    congr 2
    omega
  · rename_i h
    rw [List.length_reverse] at h
    rw [List.reverse_append, List.reverse_reverse, List.reverse_replicate, Big.leNat_append, Big.leNat_zeros, hs, Nat.mul_zero, Nat.add_zero,
      Nat.mod_eq_of_lt]
    rw [hs] at hl
    exact Nat.lt_of_lt_of_le hl (Nat.pow_le_pow_right (by decide) (by omega))

theorem toHash_beNat {d : List Byte} (h : d.length = 32) : toHash (Boc.beNat d) = d := by
  have e : (2 : Nat) ^ 256 = 256 ^ 32 := by decide
  have h1 := Vset.beBytes_beNat (toHash (Boc.beNat d))
  have h2 := Vset.beBytes_beNat d
  have h3 := Vset.beNat_lt d
  rw [toHash_length, toHash_nat, e, Nat.mod_eq_of_lt (by rw [h] at h3; exact h3)] at h1
  rw [h] at h2
  rw [← h1, h2]

theorem toU_toNat {n : Nat} (v : BitVec n) : toU n v.toNat = .ok v := by
  unfold toU
  rw [if_pos v.isLt, BitVec.ofNat_toNat, BitVec.setWidth_eq]

theorem toInt_fits {n : Nat} (v : BitVec n) : -(2 : Int) ^ n ≤ 2 * v.toInt ∧ 2 * v.toInt < (2 : Int) ^ n := by
  have h := v.isLt
  have e : ((2 ^ n : Nat) : Int) = (2 : Int) ^ n := by norm_cast
  rw [BitVec.toInt_eq_toNat_cond, ← e]
  split <;> omega

theorem toI_toInt {n : Nat} (v : BitVec n) : toI n v.toInt = .ok v := by
  unfold toI
  rw [if_pos (toInt_fits v), BitVec.ofInt_toInt]

/-! ### Plain values -/

theorem plain_type (k : RKey) (x : k.El) : (k.intoPlain x).type = k.plainType := by cases k <;> rfl

theorem key_type (k : RKey) (x : k.El) : (k.into x).type = k.type := by cases k <;> rfl

theorem plain_round : ∀ (k : RKey) (x : k.El), k.readable = true → k.Wf x → k.fromPlain (k.intoPlain x) = .ok x
  | .uint w, x, _, _ => (if_pos rfl).trans (toU_toNat x)
  | .int w, x, _, _ => (if_pos rfl).trans (toI_toInt x)
  | .hash, x, _, h => by
    show (if (256 : Nat) = 256 then Except.ok (toHash (Boc.beNat x)) else Except.error Err.invalidData) = Except.ok x
    rw [if_pos rfl, toHash_beNat h]
  | .bool, x, _, _ => rfl
  | .intAddr, x, _, _ => rfl
  | .stdAddr, x, _, _ => rfl
  | .varAddr, x, _, _ => rfl

theorem key_round : ∀ (k : RKey) (x : k.El), k.readable = true → k.Wf x → k.from (k.into x) = .ok x
  | .uint w, x, _, _ => (if_pos rfl).trans (toU_toNat x)
  | .int w, x, _, _ => (if_pos rfl).trans (toI_toInt x)
  | .hash, x, _, h => by
    show (if (256 : Nat) = 256 then Except.ok (toHash (Boc.beNat x)) else Except.error Err.invalidData) = Except.ok x
    rw [if_pos rfl, toHash_beNat h]
  | .bool, x, _, _ => rfl
  | .intAddr, x, _, _ => rfl
  | .stdAddr, x, _, _ => rfl
  | .varAddr, x, _, _ => rfl

/-- Different keys stay different. -/
theorem plain_inj (k : RKey) {x y : k.El} (hx : k.Wf x) (hy : k.Wf y) (h : k.intoPlain x = k.intoPlain y) : x = y := by
  rcases (by cases k.readable <;> simp : k.readable = true ∨ k.readable = false) with hr | hr
  · have h1 := plain_round k x hr hx
    rw [h, plain_round k y hr hy] at h1
    injection h1 with h1
    exact h1.symm
  · cases k <;> first | (cases hr; done) | (injection h)

/-! ### Lists -/

theorem Elems.length_ofList : ∀ l : List Val, (Elems.ofList l).length = l.length
  | [] => rfl
  | v :: r => by rw [Elems.ofList, Elems.length, Elems.length_ofList r, List.length_cons]

def Entries.ofList : List (PVal × Val) → Entries
  | [] => .nil
  | e :: r => .cons e.1 e.2 (Entries.ofList r)

theorem Entries.keys_ofList : ∀ l : List (PVal × Val), (Entries.ofList l).keys = l.map (·.1)
  | [] => rfl
  | e :: r => by rw [Entries.ofList, Entries.keys, Entries.keys_ofList r, List.map_cons]

theorem collect_go : ∀ (l : List (PVal × Val)) (m : Entries), (∀ e ∈ l, e.1 ∉ m.keys) → (l.map (·.1)).Nodup →
    l.foldl (fun m e => m.insert e.1 e.2) m = m.app (Entries.ofList l)
  | [], m, _, _ => (Entries.app_nil m).symm
  | e :: r, m, h, hn => by
    rw [List.map_cons, List.nodup_cons] at hn
    have he := h e List.mem_cons_self
    rw [List.foldl_cons, Entries.insert_new he, collect_go r _ (fun x hx hm => ?_) hn.2, Entries.app_assoc]
    · rfl
    · rw [Entries.keys_app, List.mem_append] at hm
      rcases hm with hm | hm
      · exact h x (List.mem_cons_of_mem _ hx) hm
      · have hm' : x.1 ∈ [e.1] := hm
        rw [List.mem_singleton] at hm'
        exact hn.1 (hm' ▸ List.mem_map_of_mem hx)

theorem collect_nodup {l : List (PVal × Val)} (h : (l.map (·.1)).Nodup) : Entries.collect l = Entries.ofList l :=
  collect_go l .nil (fun _ _ hm => by cases hm) h

theorem each_ofList {α : Type} {f : Val → Except Err α} {g : α → Val} : ∀ l : List α, (∀ x ∈ l, f (g x) = .ok x) → (Elems.ofList (l.map g)).each f = .ok l
  | [], _ => rfl
  | x :: r, h => by
    rw [List.map_cons, Elems.ofList, Elems.each, h x List.mem_cons_self]
    show ((Elems.ofList (r.map g)).each f >>= fun l => Except.ok (x :: l)) = _
    rw [each_ofList r (fun y hy => h y (List.mem_cons_of_mem _ hy))]
    rfl

theorem mapPut_new {κ α : Type} [DecidableEq κ] {k : κ} {v : α} : ∀ {l : List (κ × α)}, k ∉ l.map (·.1) → mapPut k v l = l ++ [(k, v)]
  | [], _ => rfl
  | e :: r, h => by
    rw [List.map_cons, List.mem_cons, not_or] at h
    rw [mapPut, if_neg (fun he => h.1 he.symm), mapPut_new h.2]
    rfl

theorem entries_each {κ α : Type} [DecidableEq κ] {f : PVal → Except Err κ} {g : Val → Except Err α} {f' : κ → PVal} {g' : α → Val} :
    ∀ (l m : List (κ × α)), (∀ e ∈ l, f (f' e.1) = .ok e.1 ∧ g (g' e.2) = .ok e.2) → (m.map (·.1) ++ l.map (·.1)).Nodup →
    (Entries.ofList (l.map fun e => (f' e.1, g' e.2))).each f g m = .ok (m ++ l)
  | [], m, _, _ => by rw [List.append_nil]; rfl
  | e :: r, m, h, hn => by
    obtain ⟨h1, h2⟩ := h e List.mem_cons_self
    have hk : e.1 ∉ m.map (·.1) := by
      rw [List.nodup_append] at hn
      exact fun hm => hn.2.2 _ hm _ (by rw [List.map_cons]; exact List.mem_cons_self) rfl
    rw [List.map_cons, Entries.ofList, Entries.each]
    dsimp only
    rw [h1]
    show (g (g' e.2) >>= fun v => Entries.each f g (Entries.ofList (r.map fun e => (f' e.1, g' e.2))) (mapPut e.1 v m)) = _
    rw [h2]
    show Entries.each f g (Entries.ofList (r.map fun e => (f' e.1, g' e.2))) (mapPut e.1 e.2 m) = _
    rw [mapPut_new hk, entries_each r (m ++ [(e.1, e.2)]) (fun x hx => h x (List.mem_cons_of_mem _ hx)) (by simpa using hn), List.append_assoc]
    rfl

theorem keys_nodup {k : RKey} : ∀ {l : List k.El}, (∀ x ∈ l, k.Wf x) → l.Nodup → (l.map k.intoPlain).Nodup
  | [], _, _ => List.nodup_nil
  | x :: r, h, hn => by
    rw [List.nodup_cons] at hn
    rw [List.map_cons, List.nodup_cons]
    refine ⟨fun hm => ?_, keys_nodup (fun y hy => h y (List.mem_cons_of_mem _ hy)) hn.2⟩
    obtain ⟨y, hy, e⟩ := List.mem_map.mp hm
    have := plain_inj k (h y (List.mem_cons_of_mem _ hy)) (h x List.mem_cons_self) e
    exact hn.1 (this ▸ hy)

/-! ### Bytes -/

theorem asBytes_eq : ∀ (t : RTy) (l : List t.El), (t.isU8 = true ∧ ∃ d, t.asBytes l = some d ∧ t.ofBytes d = l ∧ List.length d = l.length) ∨ (t.isU8 = false ∧ t.asBytes l = none)
  | .plain (.uint .w8), l => Or.inl ⟨rfl, l, rfl, rfl, rfl⟩
  | .plain (.uint .w16), l => Or.inr ⟨rfl, rfl⟩
  | .plain (.uint .w32), l => Or.inr ⟨rfl, rfl⟩
  | .plain (.uint .w64), l => Or.inr ⟨rfl, rfl⟩
  | .plain (.uint .w128), l => Or.inr ⟨rfl, rfl⟩
  | .plain (.int _), l => Or.inr ⟨rfl, rfl⟩
  | .plain .hash, l => Or.inr ⟨rfl, rfl⟩
  | .plain .split, l => Or.inr ⟨rfl, rfl⟩
  | .plain .uint9, l => Or.inr ⟨rfl, rfl⟩
  | .plain .uint12, l => Or.inr ⟨rfl, rfl⟩
  | .plain .uint15, l => Or.inr ⟨rfl, rfl⟩
  | .plain .bool, l => Or.inr ⟨rfl, rfl⟩
  | .plain .intAddr, l => Or.inr ⟨rfl, rfl⟩
  | .plain .stdAddr, l => Or.inr ⟨rfl, rfl⟩
  | .plain .varAddr, l => Or.inr ⟨rfl, rfl⟩
  | .varuint24, l => Or.inr ⟨rfl, rfl⟩
  | .varuint56, l => Or.inr ⟨rfl, rfl⟩
  | .tokens, l => Or.inr ⟨rfl, rfl⟩
  | .cell, l => Or.inr ⟨rfl, rfl⟩
  | .bytes, l => Or.inr ⟨rfl, rfl⟩
  | .string, l => Or.inr ⟨rfl, rfl⟩
  | .option _, l => Or.inr ⟨rfl, rfl⟩
  | .vec _, l => Or.inr ⟨rfl, rfl⟩
  | .array _ _, l => Or.inr ⟨rfl, rfl⟩
  | .map _ _, l => Or.inr ⟨rfl, rfl⟩
  | .tuple _, l => Or.inr ⟨rfl, rfl⟩
  | .struct _, l => Or.inr ⟨rfl, rfl⟩
  | .boxed _, l => Or.inr ⟨rfl, rfl⟩

/-- `into` of vectors and arrays. -/
theorem into_vec (t : RTy) (l : List t.El) : (RTy.vec t).into l = (match t.asBytes l with
    | some d => .bytes d | none => .array t.type (Elems.ofList (l.map t.into))) := rfl
theorem into_array (t : RTy) (n : Nat) (l : List t.El) : (RTy.array t n).into l = (match t.asBytes l with
    | some d => .fixedBytes d | none => .fixedArray t.type (Elems.ofList (l.map t.into))) := rfl

/-! ### Types of the values -/

theorem vec_type (t : RTy) (l : List t.El) : ((RTy.vec t).into l).type = (RTy.vec t).type := by
  rw [into_vec]
  rcases asBytes_eq t l with ⟨h, d, e, _⟩ | ⟨h, e⟩
  · rw [e]; exact (if_pos h).symm
  · rw [e]; exact (if_neg (by rw [h]; decide)).symm

theorem array_type (t : RTy) (n : Nat) (l : List t.El) (hl : l.length = n) : ((RTy.array t n).into l).type = (RTy.array t n).type := by
  rw [into_array]
  rcases asBytes_eq t l with ⟨h, d, e, _, hd⟩ | ⟨h, e⟩
  · rw [e]
    show Ty.fixedBytes d.length = if t.isU8 = true then _ else _
    rw [if_pos h, hd, hl]
  · rw [e]
    show Ty.fixedArray t.type (Elems.ofList (List.map t.into l)).length = if t.isU8 = true then _ else _
    rw [if_neg (by rw [h]; decide), Elems.length_ofList, List.length_map, hl]

mutual
theorem into_type : ∀ (t : RTy) (x : t.El), t.Wf x → (t.into x).type = t.type
  | .plain k, x, _ => key_type k x
  | .varuint24, _, _ => rfl
  | .varuint56, _, _ => rfl
  | .tokens, _, _ => rfl
  | .cell, _, _ => rfl
  | .bytes, _, _ => rfl
  | .string, _, _ => rfl
  | .option t, none, _ => rfl
  | .option t, some v, _ => rfl
  | .vec t, l, _ => vec_type t l
  | .array t n, l, h => array_type t n l h.1
  | .map k t, l, _ => rfl
  | .tuple ts, v, h => congrArg Ty.tuple (intos_type ts v h)
  | .struct ts, v, h => congrArg Ty.tuple (intos_type ts v h)
  | .boxed t, v, h => into_type t v h
theorem intos_type : ∀ (ts : RTys) (v : ts.El), ts.Wf v → (ts.into v).types = ts.types
  | .nil, _, _ => rfl
  | .cons name t r, v, h => by
    show Tys.cons name (t.into v.1).type (r.into v.2).types = Tys.cons name t.type r.types
    rw [into_type t v.1 h.1, intos_type r v.2 h.2]
end

/-! ### Back to Rust values -/

theorem intos_length : ∀ (ts : RTys) (v : ts.El), (ts.into v).length = ts.length
  | .nil, _ => rfl
  | .cons name t r, v => congrArg (· + 1) (intos_length r v.2)

/-- `from` of vectors. -/
theorem from_bytes (t : RTy) (d : List Byte) : (RTy.vec t).from (.bytes d) = if t.isU8 then .ok (t.ofBytes d) else .error .invalidData := rfl
theorem from_elems (t : RTy) (ty : Ty) (vs : Elems) : (RTy.vec t).from (.array ty vs) = if t.isU8 then .error .invalidData else vs.each t.from := rfl

theorem vec_round (t : RTy) (l : List t.El) (ih : ∀ x ∈ l, t.from (t.into x) = .ok x) : (RTy.vec t).from ((RTy.vec t).into l) = .ok l := by
  rw [into_vec]
  rcases asBytes_eq t l with ⟨h, d, e, hd, _⟩ | ⟨h, e⟩
  · rw [e]
    show (RTy.vec t).from (.bytes d) = _
    rw [from_bytes, if_pos h, hd]
  · rw [e]
    show (RTy.vec t).from (.array t.type _) = _
    rw [from_elems, if_neg (by rw [h]; decide)]
    exact each_ofList l ih

theorem pairs_nodup {k : RKey} {t : RTy} {l : List (k.El × t.El)} (h : MapOf k.Wf t.Wf l) :
    ((l.map fun e => (k.intoPlain e.1, t.into e.2)).map (·.1)).Nodup := by
  have := keys_nodup (k := k) (l := l.map (·.1)) (fun x hx => by
    obtain ⟨e, he, rfl⟩ := List.mem_map.mp hx
    exact (h.2 e he).1) h.1
  rw [List.map_map] at this ⊢
  exact this

theorem into_map {k : RKey} {t : RTy} {l : List (k.El × t.El)} (h : MapOf k.Wf t.Wf l) :
    (RTy.map k t).into l = .map k.plainType t.type (Entries.ofList (l.map fun e => (k.intoPlain e.1, t.into e.2))) :=
  congrArg (Val.map k.plainType t.type) (collect_nodup (pairs_nodup h))

theorem map_round (k : RKey) (t : RTy) (l : List (k.El × t.El)) (hr : k.readable = true) (h : MapOf k.Wf t.Wf l)
    (ih : ∀ e ∈ l, t.from (t.into e.2) = .ok e.2) : (RTy.map k t).from ((RTy.map k t).into l) = .ok l := by
  rw [into_map h]
  exact entries_each l [] (fun e he => ⟨plain_round k e.1 hr (h.2 e he).1, ih e he⟩) (by simpa using h.1)

mutual
theorem round : ∀ (t : RTy) (x : t.El), t.readable = true → t.Wf x → t.from (t.into x) = .ok x
  | .plain k, x, hr, h => key_round k x hr h
  | .varuint24, x, _, h => (if_pos rfl).trans (if_pos h)
  | .varuint56, x, _, h => (if_pos rfl).trans (if_pos h)
  | .tokens, x, _, _ => rfl
  | .cell, _, _, _ => rfl
  | .bytes, _, _, _ => rfl
  | .string, _, _, _ => rfl
  | .option t, none, _, _ => rfl
  | .option t, some v, hr, h => by
    show (t.from (t.into v) >>= fun x => Except.ok (some x)) = _
    rw [round t v hr (h v rfl)]
    rfl
  | .vec t, l, hr, h => vec_round t l (fun x hx => round t x hr (h x hx))
  | .map k t, l, hr, h => by
    have hr' : k.readable = true ∧ t.readable = true := by simpa [RTy.readable] using hr
    exact map_round k t l hr'.1 h (fun e he => round t e.2 hr'.2 (h.2 e he).2)
  | .tuple ts, v, hr, h => (if_pos (intos_length ts v)).trans (rounds ts v hr h)
  | .struct ts, v, hr, h => rounds ts v hr h
  | .boxed t, v, hr, h => round t v hr h
theorem rounds : ∀ (ts : RTys) (v : ts.El), ts.readable = true → ts.Wf v → ts.from (ts.into v) = .ok v
  | .nil, _, _, _ => rfl
  | .cons name t r, v, hr, h => by
    have hr' : t.readable = true ∧ r.readable = true := by simpa [RTys.readable] using hr
    show (t.from (t.into v.1) >>= fun x => r.from (r.into v.2) >>= fun l => Except.ok (x, l)) = _
    rw [round t v.1 hr'.1 h.1, rounds r v.2 hr'.2 h.2]
    rfl
end

end Abi
end Verif
