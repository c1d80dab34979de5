import Verif.BlockSigs
/-
C79: what the weight of checked signatures means.
-/
set_option linter.unusedVariables false
set_option linter.unusedSimpArgs false
namespace Verif
namespace Sigs
open Vset (Validator)

/-- A dictionary of `n` signatures by the same node, under the keys `0, 1, …`. -/
def sample (acc : Cell → Bool) (s : BlockSignature) : Nat → Option Cell
  | 0 => none
  | n + 1 => (sigs.insert acc (sample acc s n) n s .set).2

/-- A node with this key and weight. -/
def node (k : Byte) (w : Nat) : Validator := ⟨List.replicate 32 k, w, none, 0, 0⟩
/-- For examples: the identifier is the key, a signature is right if it consists of the first byte of the key. -/
def toy : Crypto := ⟨fun k => k, fun k _ s => s == List.replicate 64 (k.headD 0)⟩
/-- A signature for the examples. -/
def sign (k b : Byte) : BlockSignature := ⟨List.replicate 32 k, List.replicate 64 b⟩

/-- **C79.** The result of the check: an entry by someone who is not in the list does not matter; if all other signatures are right,
the result is the sum of the weights, one summand per entry (or an overflow); if one of them is wrong, the check fails. -/
theorem C79_check (C : Crypto) (list : List Validator) (data : List Byte) {acc : Cell → Bool} {d : Option Cell} {tm : Nat → Option BlockSignature}
    (h : Signed acc d tm) :
    ∃ l : List (Nat × BlockSignature), l.Pairwise (fun p q => p.1 < q.1) ∧ (∀ i s, (i, s) ∈ l ↔ i < 2 ^ 16 ∧ tm i = some s) ∧
      ((∀ i s, i < 2 ^ 16 → tm i = some s → Genuine C list data s) →
        checkSignatures C d list data =
          if (l.map fun p => weightOf C list p.2).sum < 2 ^ 64 then .ok (l.map fun p => weightOf C list p.2).sum else .error .panic) ∧
      ((∃ i s, i < 2 ^ 16 ∧ tm i = some s ∧ ¬ Genuine C list data s) →
        checkSignatures C d list data = .error .invalidSignature ∨
        (checkSignatures C d list data = .error .panic ∧ 2 ^ 64 ≤ (l.map fun p => weightOf C list p.2).sum)) := by
  obtain ⟨l, hl, he⟩ := signed_entries h
  have hin : ∀ p ∈ l, p.1 < 2 ^ 16 ∧ tm p.1 = some p.2 := fun p hp => (hl.2 p.1 p.2).mp hp
  refine ⟨l, ?_, fun i s => hl.2 i s, fun hg => ?_, ?_⟩
  · refine hl.1.imp_of_mem fun {p q} hp hq hlt => ?_
    have h1 := (hin p hp).1
    have h2 := (hin q hq).1
    unfold keyBefore keyInt at hlt
    simp only [natOfBits_natBits] at hlt
    simp at hlt
    omega
  · have hg' : ∀ p ∈ l, Genuine C list data p.2 := fun p hp => hg p.1 p.2 (hin p hp).1 (hin p hp).2
    unfold checkSignatures
    rw [he, weigh_ok C list data l 0 hg' (by decide), Nat.zero_add]
  · rintro ⟨i, s, hi, hs, hn⟩
    have hb : ¬ ∀ p ∈ l, Genuine C list data p.2 := fun g => hn (g (i, s) ((hl.2 i s).mpr ⟨hi, hs⟩))
    have := weigh_bad C list data l 0 hb
    unfold checkSignatures
    rw [he]
    rw [Nat.zero_add] at this
    exact this

/-- **C79.** Who an identifier stands for: someone of the list with that identifier; if identifiers are different there is no choice. -/
theorem C79_node (C : Crypto) (list : List Validator) (id : List Byte) :
    (∀ v, nodeFor C list id = some v → v ∈ list ∧ C.shortId v.publicKey = id) ∧
    (nodeFor C list id = none ↔ ∀ v ∈ list, C.shortId v.publicKey ≠ id) ∧
    (list.Pairwise (fun a b => C.shortId a.publicKey ≠ C.shortId b.publicKey) →
      ∀ v, nodeFor C list id = some v ↔ v ∈ list ∧ C.shortId v.publicKey = id) := by
  have h1 : ∀ v, nodeFor C list id = some v → v ∈ list ∧ C.shortId v.publicKey = id := fun v => nodeFor_mem
  have h2 : nodeFor C list id = none ↔ ∀ v ∈ list, C.shortId v.publicKey ≠ id := by
    unfold nodeFor
    rw [List.find?_eq_none]
    simp
  refine ⟨h1, h2, fun hd v => ⟨h1 v, fun ⟨hm, hv⟩ => ?_⟩⟩
  cases hn : nodeFor C list id with
  | none => exact absurd hv (h2.mp hn v hm)
  | some x =>
    obtain ⟨hx, ex⟩ := h1 x hn
    rw [same_node C hd hx hm (ex.trans hv.symm)]

/-- **C79.** If the nodes have different identifiers and nobody signs under two keys, the result is the total weight of the nodes of the
list that have signed, each with a signature that is right; so it is at most the weight of the list. -/
theorem C79_weight_partial (C : Crypto) (list : List Validator) (data : List Byte) {acc : Cell → Bool} {d : Option Cell} {tm : Nat → Option BlockSignature}
    (h : Signed acc d tm) (hd : list.Pairwise fun a b => C.shortId a.publicKey ≠ C.shortId b.publicKey)
    (hu : ∀ i j s t, i < 2 ^ 16 → j < 2 ^ 16 → tm i = some s → tm j = some t → s.nodeIdShort = t.nodeIdShort → i = j)
    {w : Nat} (hw : checkSignatures C d list data = .ok w) :
    ∃ signers : List Validator, signers.Sublist list ∧
      (∀ v ∈ list, v ∈ signers ↔ ∃ i s, i < 2 ^ 16 ∧ tm i = some s ∧ s.nodeIdShort = C.shortId v.publicKey) ∧
      (∀ v ∈ signers, ∃ i s, i < 2 ^ 16 ∧ tm i = some s ∧ C.verify v.publicKey data s.signature = true) ∧
      w = (signers.map Validator.weight).sum ∧ w ≤ (list.map Validator.weight).sum := by
  obtain ⟨l, hs, hm, hok, hbad⟩ := C79_check C list data h
  have hg : ∀ i s, i < 2 ^ 16 → tm i = some s → Genuine C list data s := by
    intro i s hi ht
    refine Classical.byContradiction fun hn => ?_
    rcases hbad ⟨i, s, hi, ht, hn⟩ with e | ⟨e, _⟩ <;> rw [hw] at e <;> cases e
  have hsum : w = (l.map fun p => weightOf C list p.2).sum := by
    have := hok hg
    rw [hw] at this
    by_cases hlt : (l.map fun p => weightOf C list p.2).sum < 2 ^ 64
    · rw [if_pos hlt] at this; injection this
    · rw [if_neg hlt] at this; cases this
  have hid : (l.map fun p => weightOf C list p.2) = (l.map fun p => p.2.nodeIdShort).map (idWeight C list) := by
    rw [List.map_map]; rfl
  have hnd : (l.map fun p => p.2.nodeIdShort).Nodup := by
    unfold List.Nodup
    rw [List.pairwise_map]
    refine hs.imp_of_mem fun {p q} hp hq hlt e => ?_
    obtain ⟨h1, h2⟩ := (hm p.1 p.2).mp hp
    obtain ⟨h3, h4⟩ := (hm q.1 q.2).mp hq
    exact absurd (hu _ _ _ _ h1 h3 h2 h4 e) (Nat.ne_of_lt hlt)
  have hmem : ∀ id, id ∈ (l.map fun p => p.2.nodeIdShort) ↔ ∃ i s, i < 2 ^ 16 ∧ tm i = some s ∧ s.nodeIdShort = id := by
    intro id
    rw [List.mem_map]
    constructor
    · rintro ⟨p, hp, e⟩
      exact ⟨p.1, p.2, ((hm p.1 p.2).mp hp).1, ((hm p.1 p.2).mp hp).2, e⟩
    · rintro ⟨i, s, h1, h2, e⟩
      exact ⟨(i, s), (hm i s).mpr ⟨h1, h2⟩, e⟩
  have hf : ∀ v ∈ list, v ∈ (list.filter fun v => decide (C.shortId v.publicKey ∈ (l.map fun p => p.2.nodeIdShort))) ↔
      ∃ i s, i < 2 ^ 16 ∧ tm i = some s ∧ s.nodeIdShort = C.shortId v.publicKey := by
    intro v hv
    rw [List.mem_filter, decide_eq_true_iff, hmem]
    exact ⟨fun x => x.2, fun x => ⟨hv, x⟩⟩
  have hsig := sum_signers C _ hnd list hd
  refine ⟨_, List.filter_sublist, hf, fun v hv => ?_, ?_, ?_⟩
  · have hv' := (List.mem_filter.mp hv).1
    obtain ⟨i, s, h1, h2, e⟩ := (hf v hv').mp hv
    exact ⟨i, s, h1, h2, hg i s h1 h2 v (((C79_node C list s.nodeIdShort).2.2 hd v).mpr ⟨hv', e.symm⟩)⟩
  · rw [hsum, hid, hsig]
  · rw [hsum, hid, hsig]
    exact sum_filter_le _ _

/-- Not vacuous: three entries, one of them by somebody unknown and with a wrong signature. -/
example : checkSignatures toy (sigs.insert (fun _ => true) (sigs.insert (fun _ => true) (sigs.insert (fun _ => true) none 5 (sign 1 1) .set).2 7 (sign 9 8) .set).2 300 (sign 2 2) .set).2
    [node 1 10, node 2 20, node 3 40] [1, 2, 3] = .ok 30 := by decide +kernel
example : checkSignatures toy (sigs.insert (fun _ => true) (sigs.insert (fun _ => true) none 5 (sign 1 1) .set).2 300 (sign 2 1) .set).2
    [node 1 10, node 2 20, node 3 40] [1, 2, 3] = .error .invalidSignature := by decide +kernel

/-- **C79.** The full claim fails: a node's signature that is listed under several keys counts several times, and so the result can be
more than the weight of all nodes (here 30 of 20). -/
theorem C79_repeated : checkSignatures toy (sample (fun _ => true) (sign 1 1) 3) [node 1 10, node 2 10] [] = .ok 30 := by decide +kernel

/-- **C79.** The sum of repeated entries can overflow. -/
theorem C79_overflow : checkSignatures toy (sample (fun _ => true) (sign 1 1) 2) [node 1 (2 ^ 63)] [] = .error .panic := by decide +kernel

/-- **C79.** Data for signing: within one network (one signature id or none) the data is determined by what is signed; different ids give
different data. -/
theorem C79_sign_id (data data' : List Byte) (id id' : Int) (h : IsSigned 32 id) (h' : IsSigned 32 id') :
    (extendWithId data (some id) = extendWithId data' (some id') ↔ id = id' ∧ data = data') ∧
    (extendWithId data none = extendWithId data' none ↔ data = data') := by
  refine ⟨⟨fun e => ?_, fun ⟨e1, e2⟩ => by rw [e1, e2]⟩, Iff.rfl⟩
  obtain ⟨e1, e2⟩ := List.append_inj (show Boc.beBytes 4 (twos 32 id) ++ data = Boc.beBytes 4 (twos 32 id') ++ data' from e)
    (by rw [Boc.beBytes_length, Boc.beBytes_length])
  refine ⟨?_, e2⟩
  have e3 := congrArg Boc.beNat e1
  rw [Boc.beNat_beBytes, Boc.beNat_beBytes] at e3
  have l1 := twos_lt 32 id
  have l2 := twos_lt 32 id'
  have e4 : twos 32 id = twos 32 id' := by
    rw [Nat.mod_eq_of_lt (by omega), Nat.mod_eq_of_lt (by omega)] at e3; exact e3
  unfold twos at e4
  unfold IsSigned at h h'
  norm_num at h h' e4
  omega

/-- **C79.** Without an id the data may be what is signed with an id for other data. -/
theorem C79_id_or_data : extendWithId [0, 0, 0, 42, 1] none = extendWithId [1] (some 42) := by decide

theorem weigh_whole (C : Crypto) (m : List (List Byte × Validator)) (data : List Byte) : ∀ (l : List (Except Err (Nat × BlockSignature))) (w n : Nat),
    weigh C m data l w = .ok n → ∀ x ∈ l, ∃ p, x = .ok p
  | [], _, _, _, x, hx => by cases hx
  | .error e :: _, _, _, h, _, _ => by cases h
  | .ok (i, s) :: r, w, n, h, x, hx => by
    rcases List.mem_cons.mp hx with rfl | hx
    · exact ⟨_, rfl⟩
    · rw [weigh] at h
      cases hn : nodeAt m s.nodeIdShort with
      | none =>
        rw [hn] at h
        exact weigh_whole C m data r w n h x hx
      | some v =>
        rw [hn] at h
        dsimp only at h
        split at h
        · cases ha : Vset.add64 w v.weight with
          | error e => rw [ha] at h; cases h
          | ok w' =>
            rw [ha] at h
            exact weigh_whole C m data r w' n h x hx
        · cases h

/-- A weight is returned only if the whole dictionary, which may be any cell, could be read: no entry is passed over. -/
theorem C79_whole (C : Crypto) (list : List Validator) (data : List Byte) (d : Option Cell) (n : Nat) (h : checkSignatures C d list data = .ok n) :
    ∀ x ∈ sigs.entries d, ∃ p, x = .ok p := weigh_whole C _ data _ 0 n h

/-- A dictionary whose only value is too short. -/
example (C : Crypto) (list : List Validator) (data : List Byte) : ∀ n, checkSignatures C (some (.mk false [false, true, true, true, false] [])) list data ≠ .ok n := by
  intro n h
  have h1 := C79_whole C list data _ n h
  have h2 : (sigs.entries (some (.mk false [false, true, true, true, false] []))).any (fun x => x.toOption.isNone) = true := by decide +kernel
  obtain ⟨x, hx, hy⟩ := List.any_eq_true.mp h2
  obtain ⟨p, rfl⟩ := h1 x hx
  cases hy

end Sigs
end Verif
