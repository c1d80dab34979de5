import Verif.VsetCodec
import Verif.DictMergeProps
/-
Helper lemmas for the codec of validator sets.
-/
set_option linter.unusedVariables false
set_option linter.unusedSimpArgs false
namespace Verif

/-- Setting an entry, in a context that builds all shallow trees. -/
theorem dict_set {κ β : Type} [DecidableEq κ] {T : DictType κ β} {okK : κ → Prop} {encK : κ → Bits} {okV : β → Prop} {R : β → Enc Cell → Prop}
    {enc : β → Enc Cell} (hK : KeyCodes T.key okK encK) (hV : Codes okV T.store T.load R enc) {B : Nat}
    (hB : 2 + bitsForLen T.key.bits + T.key.bits + B ≤ 1023) (hf : ∀ v, okV v → (enc v).1.length ≤ B ∧ (enc v).2 = []) {acc : Cell → Bool}
    (hacc : AcceptsTame acc) {d : Option Cell} {tm : κ → Option β} (hd : IsDictC T okK encK okV enc acc d tm) {k : κ} (hk : okK k) {v : β} (hv : okV v) :
    ∃ d1, T.insert acc d k v .set = (.ok true, d1) ∧ IsDictC T okK encK okV enc acc d1 (fun k' => if k' = k then some v else tm k') := by
  obtain ⟨h1, h2⟩ := C57_no_errors hK hV hB hf hacc hd [TOp.insert .set k v] (by
    intro op hop
    rw [List.mem_singleton] at hop
    subst hop
    exact ⟨hk, hv⟩)
  have h1' : (T.insert acc d k v .set).1.map TOut.flag = .ok (.flag true) := (List.cons.inj h1).1
  have h2' : IsDictC T okK encK okV enc acc (T.insert acc d k v .set).2 (fun k' => if k' = k then some v else tm k') := h2
  generalize T.insert acc d k v .set = out at h1' h2'
  obtain ⟨r, d1⟩ := out
  cases r with
  | error e => cases h1'
  | ok b => 
    have : b = true := by injection h1' with h; injection h
    exact ⟨d1, by rw [this], h2'⟩

namespace Vset

/-! ### Validator descriptions -/

theorem rest00 : Loads (Validator.loadRest false false) (fun v e => v.publicKey.length = 32 ∧ v.weight < 2 ^ 64 ∧ v.prevWeight = 0 ∧ v.adnl = none ∧
    v.mcSeqnoSince = 0 ∧ e = Enc.bits (natBits 32 pubkeyTag ++ (bytesToBits v.publicKey ++ natBits 64 v.weight))) := by
  have h := ((Tlb.hash_sound.pair Tlb.u64_sound).tagged (n := 32) (t := pubkeyTag) (by unfold Tlb.TagWidth; omega) (by decide)).ld.map
    (fun p => (⟨p.1, p.2, none, 0, 0⟩ : Validator))
  simp only [Tlb.tagged, Tlb.tagRd, Tlb.pair, pairLoad, Tlb.hash, Tlb.u64, Tlb.u32, Tlb.canonical, Prog.bind_assoc', Prog.pure_bind'] at h
  simp only [Validator.loadRest, if_true, Bool.false_eq_true, if_false, Prog.bind_assoc', Prog.pure_bind']
  refine h.iff fun v e => ?_
  constructor
  · rintro ⟨p, rfl, _, _, rfl, ⟨_, _, ⟨h1, rfl⟩, ⟨h2, rfl⟩, rfl⟩, rfl⟩
    exact ⟨h1, h2, rfl, rfl, rfl, by simp only [Enc.bits_append]⟩
  · rintro ⟨h1, h2, h3, h4, h5, rfl⟩
    refine ⟨(v.publicKey, v.weight), ?_, _, _, rfl, ⟨_, _, ⟨h1, rfl⟩, ⟨h2, rfl⟩, rfl⟩, by simp only [Enc.bits_append]⟩
    cases v; simp_all

theorem rest10 : Loads (Validator.loadRest true false) (fun v e => v.publicKey.length = 32 ∧ v.weight < 2 ^ 64 ∧ v.prevWeight = 0 ∧
    ∃ a, v.adnl = some a ∧ a.length = 32 ∧ v.mcSeqnoSince = 0 ∧
    e = Enc.bits (natBits 32 pubkeyTag ++ (bytesToBits v.publicKey ++ (natBits 64 v.weight ++ bytesToBits a)))) := by
  have h := ((Tlb.hash_sound.pair (Tlb.u64_sound.pair Tlb.hash_sound)).tagged (n := 32) (t := pubkeyTag) (by unfold Tlb.TagWidth; omega) (by decide)).ld.map
    (fun p => (⟨p.1, p.2.1, some p.2.2, 0, 0⟩ : Validator))
  simp only [Tlb.tagged, Tlb.tagRd, Tlb.pair, pairLoad, Tlb.hash, Tlb.u64, Tlb.u32, Tlb.canonical, Prog.bind_assoc', Prog.pure_bind'] at h
  simp only [Validator.loadRest, if_true, Bool.false_eq_true, if_false, Prog.bind_assoc', Prog.pure_bind']
  refine h.iff fun v e => ?_
  constructor
  · rintro ⟨p, rfl, _, _, rfl, ⟨_, _, ⟨h1, rfl⟩, ⟨_, _, ⟨h2, rfl⟩, ⟨h3, rfl⟩, rfl⟩, rfl⟩, rfl⟩
    exact ⟨h1, h2, rfl, _, rfl, h3, rfl, by simp only [Enc.bits_append]⟩
  · rintro ⟨h1, h2, h3, a, h4, h6, h5, rfl⟩
    refine ⟨(v.publicKey, v.weight, a), ?_, _, _, rfl, ⟨_, _, ⟨h1, rfl⟩, ⟨_, _, ⟨h2, rfl⟩, ⟨h6, rfl⟩, rfl⟩, rfl⟩, by simp only [Enc.bits_append]⟩
    cases v; simp_all

theorem rest11 : Loads (Validator.loadRest true true) (fun v e => v.publicKey.length = 32 ∧ v.weight < 2 ^ 64 ∧ v.prevWeight = 0 ∧ v.mcSeqnoSince < 2 ^ 32 ∧
    ∃ a, v.adnl = some a ∧ a.length = 32 ∧
    e = Enc.bits (natBits 32 pubkeyTag ++ (bytesToBits v.publicKey ++ (natBits 64 v.weight ++ (bytesToBits a ++ natBits 32 v.mcSeqnoSince))))) := by
  have h := ((Tlb.hash_sound.pair (Tlb.u64_sound.pair (Tlb.hash_sound.pair Tlb.u32_sound))).tagged (n := 32) (t := pubkeyTag) (by unfold Tlb.TagWidth; omega) (by decide)).ld.map
    (fun p => (⟨p.1, p.2.1, some p.2.2.1, p.2.2.2, 0⟩ : Validator))
  simp only [Tlb.tagged, Tlb.tagRd, Tlb.pair, pairLoad, Tlb.hash, Tlb.u64, Tlb.u32, Tlb.canonical, Prog.bind_assoc', Prog.pure_bind'] at h
  simp only [Validator.loadRest, if_true, Bool.false_eq_true, if_false, Prog.bind_assoc', Prog.pure_bind']
  refine h.iff fun v e => ?_
  constructor
  · rintro ⟨p, rfl, _, _, rfl, ⟨_, _, ⟨h1, rfl⟩, ⟨_, _, ⟨h2, rfl⟩, ⟨_, _, ⟨h3, rfl⟩, ⟨h4, rfl⟩, rfl⟩, rfl⟩, rfl⟩, rfl⟩
    exact ⟨h1, h2, rfl, h4, _, rfl, h3, by simp only [Enc.bits_append]⟩
  · rintro ⟨h1, h2, h3, h7, a, h4, h6, rfl⟩
    refine ⟨(v.publicKey, v.weight, a, v.mcSeqnoSince), ?_, _, _, rfl, ⟨_, _, ⟨h1, rfl⟩, ⟨_, _, ⟨h2, rfl⟩, ⟨_, _, ⟨h6, rfl⟩, ⟨h7, rfl⟩, rfl⟩, rfl⟩, rfl⟩, by simp only [Enc.bits_append]⟩
    cases v; simp_all

theorem validator_loads : Loads Validator.load Validator.R := by
  refine (Loads.onNat Rd.takes_u8 (R := fun t v e => (t = 0x53 ∧ v.publicKey.length = 32 ∧ v.weight < 2 ^ 64 ∧ v.prevWeight = 0 ∧ v.adnl = none ∧
        v.mcSeqnoSince = 0 ∧ e = Enc.bits (natBits 32 pubkeyTag ++ (bytesToBits v.publicKey ++ natBits 64 v.weight))) ∨
      (t = 0x73 ∧ v.publicKey.length = 32 ∧ v.weight < 2 ^ 64 ∧ v.prevWeight = 0 ∧ ∃ a, v.adnl = some a ∧ a.length = 32 ∧ v.mcSeqnoSince = 0 ∧
        e = Enc.bits (natBits 32 pubkeyTag ++ (bytesToBits v.publicKey ++ (natBits 64 v.weight ++ bytesToBits a)))) ∨
      (t = 0x93 ∧ v.publicKey.length = 32 ∧ v.weight < 2 ^ 64 ∧ v.prevWeight = 0 ∧ v.mcSeqnoSince < 2 ^ 32 ∧ ∃ a, v.adnl = some a ∧ a.length = 32 ∧
        e = Enc.bits (natBits 32 pubkeyTag ++ (bytesToBits v.publicKey ++ (natBits 64 v.weight ++ (bytesToBits a ++ natBits 32 v.mcSeqnoSince)))))) (fun t _ => ?_)).iff fun v e => ?_
  · by_cases h1 : t = 0x53
    · rw [if_pos h1]
      refine rest00.iff fun v e => ⟨fun h => Or.inl ⟨h1, h⟩, ?_⟩
      rintro (h | h | h)
      · exact h.2
      · exact absurd h.1 (by omega)
      · exact absurd h.1 (by omega)
    rw [if_neg h1]
    by_cases h2 : t = 0x73
    · rw [if_pos h2]
      refine rest10.iff fun v e => ⟨fun h => Or.inr (Or.inl ⟨h2, h⟩), ?_⟩
      rintro (h | h | h)
      · exact absurd h.1 (by omega)
      · exact h.2
      · exact absurd h.1 (by omega)
    rw [if_neg h2]
    by_cases h3 : t = 0x93
    · rw [if_pos h3]
      refine rest11.iff fun v e => ⟨fun h => Or.inr (Or.inr ⟨h3, h⟩), ?_⟩
      rintro (h | h | h)
      · exact absurd h.1 (by omega)
      · exact absurd h.1 (by omega)
      · exact h.2
    rw [if_neg h3]
    refine Loads.nothing (by decide) (by decide) fun v e => ?_
    rintro (h | h | h)
    · exact h1 h.1
    · exact h2 h.1
    · exact h3 h.1
  · unfold Validator.R Validator.InRange
    constructor
    · rintro ⟨t, _, _, _, rfl, (⟨rfl, h1, h2, h3, h4, h5, rfl⟩ | ⟨rfl, h1, h2, h3, a, h4, h6, h5, rfl⟩ | ⟨rfl, h1, h2, h3, h7, a, h4, h6, rfl⟩), rfl⟩
      · refine ⟨⟨h1, h2, by rw [h4]; simp, by rw [h5]; decide⟩, h3, ?_⟩
        rw [h4]
        exact ⟨h5, by rw [Enc.bits_append]⟩
      · refine ⟨⟨h1, h2, by rw [h4]; simpa using h6, by rw [h5]; decide⟩, h3, ?_⟩
        rw [h4]
        exact Or.inl ⟨h5, by rw [Enc.bits_append]⟩
      · refine ⟨⟨h1, h2, by rw [h4]; simpa using h6, h7⟩, h3, ?_⟩
        rw [h4]
        exact Or.inr (by rw [Enc.bits_append])
    · rintro ⟨⟨h1, h2, h6, h7⟩, h3, h⟩
      cases ha : v.adnl with
      | none =>
        rw [ha] at h
        obtain ⟨h5, rfl⟩ := h
        exact ⟨0x53, by decide, _, _, rfl, Or.inl ⟨rfl, h1, h2, h3, rfl, h5, rfl⟩, by rw [Enc.bits_append]⟩
      | some a =>
        rw [ha] at h h6
        have h6 := h6 a rfl
        rcases h with ⟨h5, rfl⟩ | rfl
        · exact ⟨0x73, by decide, _, _, rfl, Or.inr (Or.inl ⟨rfl, h1, h2, h3, a, rfl, h6, h5, rfl⟩), by rw [Enc.bits_append]⟩
        · exact ⟨0x93, by decide, _, _, rfl, Or.inr (Or.inr ⟨rfl, h1, h2, h3, h7, a, rfl, h6, rfl⟩), by rw [Enc.bits_append]⟩

/-- The store of the code, with the address of the validator in all forms. -/
def storeFull (v : Validator) : Wr Cell Unit :=
  Wr.u8 (if v.mcSeqnoSince ≠ 0 then 0x93 else if v.adnl.isSome then 0x73 else 0x53) >>= fun _ =>
  Wr.u32 pubkeyTag >>= fun _ =>
  Wr.u256 v.publicKey >>= fun _ =>
  Wr.u64 v.weight >>= fun _ =>
  storeAdnl v.adnl >>= fun _ =>
  if v.mcSeqnoSince ≠ 0 then Wr.u32 v.mcSeqnoSince else pure ()

/-- What can be loaded. -/
def okFull (v : Validator) : Prop := v.InRange ∧ v.prevWeight = 0 ∧ (v.mcSeqnoSince ≠ 0 → v.adnl.isSome = true)

theorem store_plain (v : Validator) : v.store = storeFull v.plain := by
  unfold Validator.store storeFull Validator.plain
  by_cases h : v.mcSeqnoSince ≠ 0
  · simp only [if_pos h]
  · simp only [if_neg h]

theorem plain_ok {v : Validator} (h : v.InRange) : okFull v.plain := by
  refine ⟨⟨h.1, h.2.1, ?_, h.2.2.2⟩, rfl, fun hq => ?_⟩
  · show ∀ a ∈ (if v.mcSeqnoSince ≠ 0 then some zeroHash else v.adnl), a.length = 32
    split
    · intro a ha
      cases ha
      rfl
    · exact h.2.2.1
  · show (if v.mcSeqnoSince ≠ 0 then some zeroHash else v.adnl).isSome = true
    rw [if_pos (show v.mcSeqnoSince ≠ 0 from hq)]; rfl

theorem full_codes : Codes okFull storeFull Validator.load Validator.R Validator.enc where
  writes v hv := by
    obtain ⟨⟨h1, h2, h3, h4⟩, h5, h6⟩ := hv
    unfold storeFull Validator.enc
    have hk := Tlb.hash_sound.st.writes v.publicKey h1
    have hw := Tlb.u64_sound.st.writes v.weight h2
    have ht := (Wr.writes_u32 (ρ := Cell) (v := pubkeyTag) (by decide)).writes
    by_cases hq : v.mcSeqnoSince ≠ 0
    · simp only [if_pos hq]
      have h6 := h6 hq
      cases ha : v.adnl with
      | none => rw [ha] at h6; cases h6
      | some a =>
        simp only [← Enc.bits_append, Option.getD_some]
        exact ((Wr.writes_u8 (ρ := Cell) (v := 0x93) (by decide)).writes.seq (ht.seq (hk.seq (hw.seq
          ((Tlb.hash_sound.st.writes a (h3 a ha)).seq (Tlb.u32_sound.st.writes v.mcSeqnoSince h4))))))
    · simp only [if_neg hq]
      cases ha : v.adnl with
      | none =>
        simp only [← Enc.bits_append]
        have hw := hw.seq (f := fun _ => storeAdnl none >>= fun _ => pure ()) (Writes.pure.seq Writes.pure)
        rw [Enc.append_nil, Enc.append_nil] at hw
        exact ((Wr.writes_u8 (ρ := Cell) (v := 0x53) (by decide)).writes.seq (ht.seq (hk.seq hw)))
      | some a =>
        simp only [← Enc.bits_append]
        have hw2 := (Tlb.hash_sound.st.writes a (h3 a ha)).seq (f := fun _ => pure ()) Writes.pure
        rw [Enc.append_nil] at hw2
        exact ((Wr.writes_u8 (ρ := Cell) (v := 0x73) (by decide)).writes.seq (ht.seq (hk.seq (hw.seq hw2))))
  canon v hv := by
    refine ⟨hv.1, hv.2.1, ?_⟩
    unfold Validator.enc
    by_cases hq : v.mcSeqnoSince ≠ 0
    · have := hv.2.2 hq
      simp only [if_pos hq]
      cases ha : v.adnl with
      | none => rw [ha] at this; cases this
      | some a => exact Or.inr rfl
    · simp only [if_neg hq]
      have hq : v.mcSeqnoSince = 0 := Classical.byContradiction hq
      cases ha : v.adnl with
      | none => exact ⟨hq, rfl⟩
      | some a => exact Or.inl ⟨hq, rfl⟩
  valid v e h := by
    refine ⟨h.1, h.2.1, fun hq => ?_⟩
    have := h.2.2
    cases ha : v.adnl with
    | none => rw [ha] at this; exact absurd this.1 hq
    | some a => rfl
  reads := validator_loads.reads
  exact := validator_loads.exact
  safe := validator_loads.safe

theorem enc_small (v : Validator) (h : okFull v) : v.enc.1.length ≤ 648 ∧ v.enc.2 = [] := by
  obtain ⟨⟨h1, h2, h3, h4⟩, h5, h6⟩ := h
  unfold Validator.enc
  split
  · rename_i hq
    have := h6 hq
    cases ha : v.adnl with
    | none => rw [ha] at this; cases this
    | some a =>
      refine ⟨?_, rfl⟩
      show (natBits 8 0x93 ++ (natBits 32 pubkeyTag ++ (bytesToBits v.publicKey ++ (natBits 64 v.weight ++ (bytesToBits a ++ natBits 32 v.mcSeqnoSince))))).length ≤ _
      simp only [List.length_append, natBits_length, bytesToBits_length, h1, h3 a ha]
      decide
  · split
    · rename_i a ha
      refine ⟨?_, rfl⟩
      show (natBits 8 0x73 ++ (natBits 32 pubkeyTag ++ (bytesToBits v.publicKey ++ (natBits 64 v.weight ++ bytesToBits a)))).length ≤ _
      simp only [List.length_append, natBits_length, bytesToBits_length, h1, h3 a ha]
      decide
    · refine ⟨?_, rfl⟩
      show (natBits 8 0x53 ++ (natBits 32 pubkeyTag ++ (bytesToBits v.publicKey ++ natBits 64 v.weight))).length ≤ _
      simp only [List.length_append, natBits_length, bytesToBits_length, h1]
      decide

theorem enc_fits (v : Validator) (h : okFull v) : v.enc.Fits :=
  ⟨Nat.le_trans (enc_small v h).1 (by decide), by rw [(enc_small v h).2]; exact Nat.zero_le _⟩

/-! ### The dictionary -/

/-- The dictionary type with the full store. -/
def full : DictType Nat Validator := ⟨Key.u16, storeFull, Validator.load⟩

theorem full_key : KeyCodes full.key (fun i => i < 2 ^ 16) (natBits 16) := C56_keys.2.2.1

theorem insert_plain (acc : Cell → Bool) (d : Option Cell) (k : Nat) (v : Validator) (mode : SetMode) :
    validators.insert acc d k v mode = full.insert acc d k v.plain mode := by
  unfold DictType.insert
  have h : validators.valueOf v = full.valueOf v.plain := by
    unfold DictType.valueOf
    rw [show validators.store v = full.store v.plain from store_plain v]
  have h2 : validators.keyOf k = full.keyOf k := by
    unfold DictType.keyOf
    rw [show validators.key = Key.u16 from rfl, show full.key = Key.u16 from rfl]
  rw [h, h2, show validators.key = Key.u16 from rfl, show full.key = Key.u16 from rfl]

attribute [local irreducible] Validator.store storeFull Validator.load dictInsert

theorem next_full : validators.next = full.next := by
  funext it
  unfold DictType.next DictType.parseEntry DictType.parse DictType.parseKey
  rw [show validators.key = Key.u16 from rfl, show full.key = Key.u16 from rfl, show validators.load = Validator.load from rfl, show full.load = Validator.load from rfl]

/-- The root is the canonical dictionary of these validators. -/
def HoldsC (acc : Cell → Bool) (d : Option Cell) (m : Nat → Option Validator) : Prop :=
  IsDictC full (fun i => i < 2 ^ 16) (natBits 16) okFull Validator.enc acc d m

theorem HoldsC.any {acc : Cell → Bool} {d : Option Cell} {m : Nat → Option Validator} (h : HoldsC acc d m) : Holds acc d m := by
  obtain ⟨m', h1, h2⟩ := h
  refine ⟨m', representsC_any h1, h2.1, fun x hx => ?_⟩
  have := h2.2 x hx
  cases ht : m x with
  | none => rw [ht] at this; cases hm : m' (natBits 16 x) with
    | none => trivial
    | some s => rw [hm] at this; exact this.elim
  | some v => rw [ht] at this; cases hm : m' (natBits 16 x) with
    | none => rw [hm] at this; exact this.elim
    | some s => rw [hm] at this; exact holds_exactly (T := full) full_codes this

/-- `m` overwritten from the index `i` on. -/
def filled (m : Nat → Option Validator) (i : Nat) (vs : List Validator) (k : Nat) : Option Validator :=
  if i ≤ k ∧ k < i + vs.length then vs[k - i]?.map Validator.plain else m k

theorem setAll_ok {acc : Cell → Bool} (hacc : AcceptsTame acc) : ∀ (vs : List Validator) (i : Nat) (d : Option Cell) (m : Nat → Option Validator),
    (∀ v ∈ vs, v.InRange) → i + vs.length ≤ 2 ^ 16 → HoldsC acc d m → ∃ d', setAll acc i vs d = .ok d' ∧ HoldsC acc d' (filled m i vs)
  | [], i, d, m, _, _, hd => by
    refine ⟨d, rfl, ?_⟩
    have : filled m i [] = m := by
      funext k
      unfold filled
      rw [if_neg (by simp)]
    rw [this]; exact hd
  | v :: vs, i, d, m, hr, hl, hd => by
    have hl' : i + (vs.length + 1) ≤ 2 ^ 16 := hl
    have hi : i < 2 ^ 16 := by omega
    have hv := hr v List.mem_cons_self
    obtain ⟨d1, e1, hd1⟩ := dict_set full_key full_codes (B := 648) (by decide) enc_small hacc hd hi (plain_ok hv)
    obtain ⟨d', e2, hd'⟩ := setAll_ok hacc vs (i + 1) d1 _ (fun w hw => hr w (List.mem_cons_of_mem _ hw)) (by omega) hd1
    refine ⟨d', ?_, ?_⟩
    · unfold setAll
      have : setOne acc i v d = (.ok true, d1) := by
        unfold setOne
        rw [Nat.mod_eq_of_lt hi, insert_plain, e1]
      rw [this]
      exact e2
    · have e : filled (fun k => if k = i then some v.plain else m k) (i + 1) vs = filled m i (v :: vs) := by
        funext k
        unfold filled
        simp only [List.length_cons]
        by_cases hk : k = i
        · subst hk
          rw [if_neg (by omega), if_pos rfl, if_pos (by omega), Nat.sub_self]
          rfl
        · by_cases hk2 : i + 1 ≤ k ∧ k < i + 1 + vs.length
          · rw [if_pos hk2, if_pos (by omega)]
            obtain ⟨j, rfl⟩ : ∃ j, k = i + 1 + j := ⟨k - (i + 1), by omega⟩
            rw [show i + 1 + j - (i + 1) = j by omega, show i + 1 + j - i = j + 1 by omega]
            rfl
          · rw [if_neg hk2, if_neg hk, if_neg (by omega)]
      rw [← e]; exact hd'

/-! ### The loop over the entries -/

/-- `collect`, on the list of the entries. -/
def collectL : Nat → Nat → Nat → List (Nat × Validator) → Except Err (List Validator × Nat)
  | 0, _, w, _ => .ok ([], w)
  | _ + 1, _, w, [] => .ok ([], w)
  | n + 1, i, w, (idx, v) :: l =>
    if idx = i then
      if w + v.weight < 2 ^ 64 then
        match collectL n (i + 1) (w + v.weight) l with
        | .error e => .error e
        | .ok (l, total) => .ok ({ v with prevWeight := w } :: l, total)
      else .error .invalidData
    else .error .invalidData

theorem collect_eq : ∀ (n i w : Nat) (it : RawIter) (l : List (Nat × Validator)), Yields validators.next it (l.map .ok) → collect n i w it = collectL n i w l
  | 0, _, _, _, _, _ => rfl
  | n + 1, i, w, it, [], h => by
    have := yields_nil h
    unfold collect collectL
    generalize validators.next it = out at this
    obtain ⟨r, it'⟩ := out
    cases this
    rfl
  | n + 1, i, w, it, (idx, v) :: l, h => by
    obtain ⟨h1, h2⟩ := yields_cons h
    have ih := collect_eq n (i + 1) (w + v.weight) _ l h2
    unfold collect collectL
    generalize validators.next it = out at h1 h2 ih
    obtain ⟨r, it'⟩ := out
    cases h1
    dsimp only at ih ⊢
    rw [ih]
    rfl

theorem collectL_inv : ∀ (n i w : Nat) (l : List (Nat × Validator)) (vs : List Validator) (total : Nat), collectL n i w l = .ok (vs, total) →
    vs.length ≤ n ∧ vs.length ≤ l.length ∧ (vs.length < n → vs.length = l.length) ∧ vs = weighted w ((l.take vs.length).map (·.2)) ∧
    total = w + weightOf vs ∧ (w < 2 ^ 64 → total < 2 ^ 64) ∧ ∀ j (hj : j < l.length), j < vs.length → l[j].1 = i + j
  | 0, i, w, l, vs, total, h => by
    unfold collectL at h
    cases h
    exact ⟨Nat.le_refl _, Nat.zero_le _, fun h => absurd h (Nat.lt_irrefl _), rfl, rfl, fun h => h, fun _ _ h => absurd h (Nat.not_lt_zero _)⟩
  | n + 1, i, w, [], vs, total, h => by
    unfold collectL at h
    cases h
    exact ⟨Nat.zero_le _, Nat.le_refl _, fun _ => rfl, rfl, rfl, fun h => h, fun _ _ h => absurd h (Nat.not_lt_zero _)⟩
  | n + 1, i, w, (idx, v) :: l, vs, total, h => by
    unfold collectL at h
    by_cases hi : idx = i
    · rw [if_pos hi] at h
      by_cases hw : w + v.weight < 2 ^ 64
      · rw [if_pos hw] at h
        cases hc : collectL n (i + 1) (w + v.weight) l with
        | error e => rw [hc] at h; cases h
        | ok p =>
          obtain ⟨vs', t⟩ := p
          rw [hc] at h
          have h : (({ v with prevWeight := w } : Validator) :: vs', t) = (vs, total) := by injection h
          obtain ⟨rfl, rfl⟩ := Prod.mk.inj h
          obtain ⟨h1, h2, h3, h4, h5, h6, h7⟩ := collectL_inv n (i + 1) (w + v.weight) l vs' t hc
          refine ⟨Nat.succ_le_succ h1, Nat.succ_le_succ h2, fun h => congrArg Nat.succ (h3 (Nat.lt_of_succ_lt_succ h)), ?_, ?_, fun _ => h6 hw, ?_⟩
          · show _ = weighted w (v :: (l.take vs'.length).map (·.2))
            show _ = { v with prevWeight := w } :: weighted (w + v.weight) _
            rw [← h4]
          · have : weightOf (({ v with prevWeight := w } : Validator) :: vs') = v.weight + weightOf vs' := by
              unfold weightOf; simp
            rw [this, h5]; omega
          · intro j hj hj'
            cases j with
            | zero => exact hi
            | succ j =>
              have hj1 : j < l.length := Nat.lt_of_succ_lt_succ hj
              show l[j].1 = _
              rw [h7 j (Nat.lt_of_succ_lt_succ hj) (Nat.lt_of_succ_lt_succ hj')]; omega
      · rw [if_neg hw] at h; cases h
    · rw [if_neg hi] at h; cases h

/-- A list of validators with their indices. -/
def indexed : Nat → List Validator → List (Nat × Validator)
  | _, [] => []
  | i, v :: vs => (i, v) :: indexed (i + 1) vs

/-- The entries of a dictionary of validators, in the order of the iterator. -/
theorem Holds.entries {acc : Cell → Bool} {d : Option Cell} {m : Nat → Option Validator} (h : Holds acc d m) :
    ∃ l : List (Nat × Validator), l.Pairwise (fun p q => p.1 < q.1) ∧ (∀ x v, (x, v) ∈ l ↔ x < 2 ^ 16 ∧ m x = some v) ∧
      Yields validators.next (RawIter.new d 16 false false) (l.map .ok) := by
  obtain ⟨h1, _⟩ := C57_iter (T := full) full_key (show 16 ≤ 1023 by decide) full_codes enc_fits acc (d := d) (tm := m) h
  obtain ⟨l, ⟨h2, h3⟩, h4⟩ := h1 false false
  refine ⟨l, ?_, h3, ?_⟩
  · refine h2.imp_of_mem fun {p q} hp hq hk => ?_
    have b1 := ((h3 p.1 p.2).mp hp).1
    have b2 := ((h3 q.1 q.2).mp hq).1
    unfold keyBefore keyInt at hk
    simp only [Bool.false_eq_true, false_and, if_false, natOfBits_natBits] at hk
    rw [Nat.mod_eq_of_lt b1, Nat.mod_eq_of_lt b2] at hk
    omega
  · rw [next_full]
    exact h4

end Vset
end Verif
