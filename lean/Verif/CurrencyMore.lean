import Verif.CurrencyThms
/-
C45, C57: collections from lists, their stored form, the extra of augmented dictionaries that is a collection.
-/
set_option linter.unusedVariables false
set_option linter.unusedSimpArgs false
namespace Verif

/-! ### Specification -/

/-- The grammar of a variable integer. -/
def VarKind.R {ρ : Type} (k : VarKind) (v : Nat) (e : Enc ρ) : Prop :=
  v ≤ k.max ∧ ∃ n, n ≤ k.maxBytes ∧ v < 2 ^ (8 * n) ∧ e = varEnc k.lenBits n v
def VarKind.enc {ρ : Type} (k : VarKind) (v : Nat) : Enc ρ := varEnc k.lenBits (k.bytes v) v

namespace Currency
def Ok (a : Currency) : Prop := a.tokens ≤ VarKind.tokens.max
/-- The tokens, then a bit and the root of the dictionary if there is one. -/
def R (a : Currency) (e : Enc Cell) : Prop := ∃ e1, VarKind.tokens.R a.tokens e1 ∧ e = e1 ++ optEnc Enc.ref a.other
def enc (a : Currency) : Enc Cell := VarKind.tokens.enc a.tokens ++ optEnc Enc.ref a.other
end Currency

/-! ### Lemmas -/

theorem VarKind.leastBytes (k : VarKind) {v : Nat} (hv : v ≤ k.max) : LeastBytes (k.bytes v) v := by
  have hm := k.max_eq
  have hs : v < 2 ^ (8 * k.size) := by
    have : 2 ^ (8 * k.maxBytes) ≤ 2 ^ (8 * k.size) := Nat.pow_le_pow_right (by decide) (by cases k <;> decide)
    omega
  exact ⟨(k.bytes_spec hs).1 (Nat.le_refl _), fun m hm => (k.bytes_spec hs).2 hm⟩

theorem VarKind.codes {ρ : Type} (k : VarKind) : Codes (ρ := ρ) (fun v => v ≤ k.max) k.store k.load k.R k.enc where
  writes v h := (C41_store k h (k.leastBytes h)).1.writes
  canon v h := by
    have hm := k.max_eq
    exact ⟨h, _, (k.leastBytes h).2 _ (by omega), (k.leastBytes h).1, rfl⟩
  valid v e h := h.1
  reads := by
    rintro v e ⟨_, n, h1, h2, rfl⟩
    exact (C41_load k).1 n v h1 h2
  exact := (C41_load k).2.1
  safe := (C41_load k).2.2

theorem optRef_R (o : Option Cell) (e : Enc Cell) : optR (Canon (fun _ => True) Enc.ref) o e ↔ e = optEnc Enc.ref o := by
  cases o with
  | none => exact Iff.rfl
  | some c =>
    constructor
    · rintro ⟨e', ⟨_, rfl⟩, rfl⟩; rfl
    · intro h; exact ⟨_, ⟨trivial, rfl⟩, h⟩

theorem optRef_codes : Codes (fun _ => True) (optStore (Wr.ref : Cell → Wr Cell Unit)) (optLoad Rd.ref) (fun o e => e = optEnc Enc.ref o) (optEnc Enc.ref) :=
  Codes.cast Codes.ref.opt (fun v => by cases v <;> exact ⟨fun _ => trivial, fun _ => trivial⟩) (fun v _ => rfl) rfl
    (fun v e => optRef_R v e) (fun v _ => rfl)

theorem insertById_perm (e : Nat × V248) (l : List (Nat × V248)) : (insertById e l).Perm (e :: l) := by
  induction l with
  | nil => exact List.Perm.refl _
  | cons x l ih =>
    unfold insertById
    split
    · exact List.Perm.refl _
    · exact (ih.cons x).trans (List.Perm.swap _ _ _)

theorem insertById_sorted (e : Nat × V248) (l : List (Nat × V248)) (h : l.Pairwise (fun a b => a.1 ≤ b.1)) :
    (insertById e l).Pairwise (fun a b => a.1 ≤ b.1) := by
  induction l with
  | nil => exact List.pairwise_singleton _ _
  | cons x l ih =>
    unfold insertById
    split
    · rename_i hle
      refine List.pairwise_cons.mpr ⟨fun y hy => ?_, h⟩
      rcases List.mem_cons.mp hy with rfl | hy
      · exact hle
      · exact Nat.le_trans hle ((List.pairwise_cons.mp h).1 y hy)
    · rename_i hle
      refine List.pairwise_cons.mpr ⟨fun y hy => ?_, ih (List.pairwise_cons.mp h).2⟩
      rcases List.mem_cons.mp ((insertById_perm e l).mem_iff.mp hy) with rfl | hy
      · omega
      · exact (List.pairwise_cons.mp h).1 y hy

theorem sortById_spec (l : List (Nat × V248)) :
    (l.foldr insertById []).Perm l ∧ (l.foldr insertById []).Pairwise (fun a b => a.1 ≤ b.1) := by
  induction l with
  | nil => exact ⟨List.Perm.refl _, List.Pairwise.nil⟩
  | cons e l ih => exact ⟨(insertById_perm e _).trans (ih.1.cons e), insertById_sorted e _ ih.2⟩

section
variable {κ β : Type} {T : DictType κ β} {okK : κ → Prop} {encK : κ → Bits} {okV : β → Prop} {R : β → Enc Cell → Prop} {enc : β → Enc Cell}

theorem specAll_append [DecidableEq κ] (tm : κ → Option β) (l1 l2 : List (TOp κ β)) :
    (TOp.specAll tm (l1 ++ l2)).2 = (TOp.specAll (TOp.specAll tm l1).2 l2).2 := by
  induction l1 generalizing tm with
  | nil => rfl
  | cons op l ih => exact ih _

theorem specAll_firstOf [DecidableEq κ] (es : List (κ × β)) :
    (TOp.specAll (fun _ => none) (es.reverse.map fun e => TOp.insert .set e.1 e.2)).2 = firstOf es := by
  induction es with
  | nil => rfl
  | cons e es ih =>
    rw [List.reverse_cons, List.map_append, specAll_append, ih]
    funext x
    rfl

/-! ### Property theorems -/

/-- With the ordinary context, building from ascending entries does not fail. -/
theorem C57_build_ok [DecidableEq κ] (hK : KeyCodes T.key okK encK) (hV : Codes okV T.store T.load R enc) {B : Nat}
    (hB : 2 + bitsForLen T.key.bits + T.key.bits + B ≤ 1023) (hf : ∀ v, okV v → (enc v).1.length ≤ B ∧ (enc v).2 = []) {acc : Cell → Bool}
    (hacc : AcceptsTame acc) (es : List (κ × β)) (hes : ∀ e ∈ es, okK e.1 ∧ okV e.2)
    (hasc : es.Pairwise (fun a b => lexBits (encK a.1) (encK b.1) ≠ .gt)) :
    ∃ d, T.build acc es = .ok d ∧ IsDictC T okK encK okV enc acc d (firstOf es) := by
  have hf' : ∀ v, okV v → (enc v).Fits := fun v hv => ⟨by have := (hf v hv).1; omega, by rw [(hf v hv).2]; exact Nat.zero_le _⟩
  rcases C57_build hK (by omega) hV hf' acc es hes hasc with h | ⟨_, hn⟩
  · exact h
  · refine absurd ?_ hn
    have := (C57_no_errors hK hV hB hf hacc (C57_empty acc) (es.reverse.map fun e => TOp.insert .set e.1 e.2) (fun op hop => by
      obtain ⟨e, he, rfl⟩ := List.mem_map.mp hop
      exact hes e (List.mem_reverse.mp he))).2
    rw [specAll_firstOf] at this
    exact ⟨_, this⟩
end

theorem firstOf_iff {κ β : Type} [DecidableEq κ] {es : List (κ × β)} (hd : es.Pairwise (fun a b => a.1 ≠ b.1)) (k : κ) (v : β) :
    firstOf es k = some v ↔ (k, v) ∈ es := by
  induction es with
  | nil => exact ⟨fun h => (by cases h), fun h => (by cases h)⟩
  | cons e es ih =>
    obtain ⟨k', v'⟩ := e
    have h1 := (List.pairwise_cons.mp hd).1
    unfold firstOf
    by_cases h : k = k'
    · rw [if_pos h]
      subst h
      constructor
      · intro h; injection h with h; rw [h]; exact List.mem_cons_self
      · intro h
        rcases List.mem_cons.mp h with h | h
        · injection h with _ h; rw [h]
        · exact absurd rfl (h1 (k, v) h)
    · rw [if_neg h, ih (List.pairwise_cons.mp hd).2]
      constructor
      · exact List.mem_cons_of_mem _
      · intro h'
        rcases List.mem_cons.mp h' with h' | h'
        · injection h' with h' _; exact absurd h' h
        · exact h'

theorem firstOf_perm {κ β : Type} [DecidableEq κ] {l l' : List (κ × β)} (h : l.Perm l') (hd : l.Pairwise (fun a b => a.1 ≠ b.1)) :
    firstOf l = firstOf l' := by
  have hd' : l'.Pairwise (fun a b => a.1 ≠ b.1) := (h.pairwise_iff (fun h => fun e => h e.symm)).mp hd
  funext k
  cases h1 : firstOf l k with
  | some v =>
    have := (firstOf_iff hd k v).mp h1
    exact ((firstOf_iff hd' k v).mpr (h.mem_iff.mp this)).symm
  | none => cases h2 : firstOf l' k with
    | none => rfl
    | some v =>
      have := (firstOf_iff hd k v).mpr (h.mem_iff.mpr ((firstOf_iff hd' k v).mp h2))
      rw [h1] at this; cases this

/-- A collection made from a list of distinct identifiers in any order has exactly its amounts; it does not fail. -/
theorem C45_from_iter {acc : Cell → Bool} (hacc : AcceptsTame acc) (l : List (Nat × V248)) (hl : ∀ e ∈ l, okId e.1 ∧ okAmount e.2)
    (hd : l.Pairwise (fun a b => a.1 ≠ b.1)) :
    ∃ d, extraFromIter acc l = .ok d ∧ CoinsC acc d (fun id => (firstOf l id).map V248.val) := by
  obtain ⟨hp, hs⟩ := sortById_spec l
  have hl' : ∀ e ∈ l.foldr insertById [], okId e.1 ∧ okAmount e.2 := fun e he => hl e (hp.mem_iff.mp he)
  obtain ⟨d, h1, h2⟩ := C57_build_ok (T := coins) (B := 253) coins_key amount_codes (by decide) (fun v hv => amountEnc_small hv) hacc
    (l.foldr insertById []) hl' (by
      refine List.Pairwise.imp_of_mem (R := fun a b => a.1 ≤ b.1) ?_ hs
      intro a b ha hb hab
      have e := (C56_order 32).1 a.1 b.1 (hl' a ha).1 (hl' b hb).1
      rw [e]
      intro hgt
      have := Nat.compare_eq_gt.mp hgt
      omega)
  refine ⟨d, h1, firstOf l, ?_, fun id _ => rfl⟩
  rw [firstOf_perm hp.symm hd]
  exact h2

/-- A collection is stored as its tokens and its dictionary, and read back; exactly the encodings in the grammar are accepted. -/
theorem C45_codes : Codes Currency.Ok Currency.store Currency.load Currency.R Currency.enc := by
  have h := (Codes.pair VarKind.tokens.codes optRef_codes).iso Currency.Ok (fun p => ⟨p.1, p.2⟩) (fun c => (c.tokens, c.other))
    (fun c hc => ⟨⟨hc, trivial⟩, rfl⟩) (fun p hp => ⟨hp.1, rfl⟩)
  refine h.cast (fun v => Iff.rfl) (fun v _ => rfl) ?_ ?_ (fun v _ => rfl)
  · unfold Currency.load pairLoad
    simp only [Prog.bind_assoc', Prog.pure_bind']
  · intro v e
    constructor
    · rintro ⟨h1, e1, e2, h2, h3, h4⟩
      have h3 : e2 = optEnc Enc.ref v.other := h3
      exact ⟨e1, h2, by rw [h4, h3]⟩
    · rintro ⟨e1, h1, h2⟩
      exact ⟨h1.1, e1, _, h1, rfl, h2⟩

/-- The extra of a fork: from slices that begin with encodings of two collections the encoding of their sum is written; it fails exactly when
the sum fails, or when there is no room. -/
theorem C45_comp_add (acc : Cell → Bool) {l r : CSlice Cell} (hl : l.WF) (hr : r.WF) {a b : Currency} {ea eb el er : Enc Cell}
    (ha : Currency.R a ea) (hb : Currency.R b eb) (cl : l.contents = ea ++ el) (cr : r.contents = eb ++ er) :
    (∀ c, a.checkedAdd acc b = .ok c → Currency.compAdd acc l r = c.store) ∧
    (∀ e, a.checkedAdd acc b = .error e → ∀ x, Currency.compAdd acc l r x = (.error e, x)) := by
  obtain ⟨l', h1, _⟩ := C45_codes.reads a ea ha l el hl cl
  obtain ⟨r', h2, _⟩ := C45_codes.reads b eb hb r er hr cr
  constructor
  · intro c hc
    funext x
    unfold Currency.compAdd
    rw [h1, h2]
    dsimp only
    rw [hc]
  · intro e he x
    unfold Currency.compAdd
    rw [h1, h2]
    dsimp only
    rw [he]

/-! ### Non-vacuity -/

/-- Two collections: 5 tokens, 7 of currency 1 and 2^200 of 3; 6 tokens, 9 of currency 1 and 1 of 2. -/
def sampleA : Currency := ⟨5, ((extraFromIter (fun _ => true) [(3, ⟨2 ^ 72, 0⟩), (1, ⟨0, 7⟩)]).toOption).getD none⟩
def sampleB : Currency := ⟨6, ((extraFromIter (fun _ => true) [(2, ⟨0, 1⟩), (1, ⟨0, 9⟩)]).toOption).getD none⟩

def listed (c : Currency) : Nat × List (Option (Nat × Nat)) := (c.tokens, (coins.entries c.other).map fun e => e.toOption.map fun p => (p.1, p.2.val))

example : ((sampleA.checkedAdd (fun _ => true) sampleB).toOption.map listed) =
    some (11, [some (1, 16), some (2, 1), some (3, 2 ^ 200)]) := by decide +kernel

/-- Subtracting what was added returns the first collection; subtracting the larger one fails. -/
example : ((sampleA.checkedAdd (fun _ => true) sampleB).toOption.bind fun s => (s.checkedSub (fun _ => true) sampleB).toOption.map listed) =
    some (5, [some (1, 7), some (3, 2 ^ 200)]) ∧ (sampleA.checkedSub (fun _ => true) sampleB).toOption.isNone = true := by decide +kernel

example : ((sampleA.checkedClamp (fun _ => true) sampleB).toOption.map listed) = some (5, [some (1, 7)]) := by decide +kernel

/-- The hypotheses of the theorems hold for them. -/
example : CoinsC (fun _ => true) sampleA.other (fun id => (firstOf [(3, (⟨2 ^ 72, 0⟩ : V248)), (1, ⟨0, 7⟩)] id).map V248.val) := by
  obtain ⟨d, h1, h2⟩ := C45_from_iter (acc := fun _ => true) (fun _ _ => rfl) [(3, ⟨2 ^ 72, 0⟩), (1, ⟨0, 7⟩)]
    (by
      intro e he
      rcases List.mem_cons.mp he with rfl | he
      · exact ⟨show (_ : Nat) < _ from by decide, ⟨by decide, by decide⟩, show (_ : Nat) < _ from by decide⟩
      · rw [List.mem_singleton.mp he]; exact ⟨show (_ : Nat) < _ from by decide, ⟨by decide, by decide⟩, show (_ : Nat) < _ from by decide⟩)
    (by simp)
  have : sampleA.other = d := by unfold sampleA; rw [h1]; rfl
  rw [this]
  exact h2

/-- C45: `is_zero` holds for the zero collection alone: a collection with a dictionary of other currencies is not zero, whatever its tokens. -/
theorem C45_is_zero (a : Currency) : a.isZero = true ↔ a = Currency.zero := by
  obtain ⟨t, o⟩ := a
  unfold Currency.isZero Currency.zero
  cases o <;> simp

end Verif
