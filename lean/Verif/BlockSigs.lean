import Verif.Block
import Verif.VsetCodecProps
import Verif.BocDeLemmas
/-
Signatures of blocks (`models/block/block_extra.rs`) and data for signing (`abi/signature.rs`). Hashing of public keys and the
check of a single signature are parameters.
-/
set_option linter.unusedVariables false
set_option linter.unusedSimpArgs false
namespace Verif
namespace Sigs
open Vset (Validator)

/-! ### Model -/

/-- `Dict<u16, BlockSignature>` (`models/block/block_extra.rs:411`) -/
def sigs : DictType Nat BlockSignature := ⟨Key.u16, blockSignature.store, blockSignature.load⟩

/-- What the check takes from cryptography: the short identifier of a node (`tl_proto::hash` of its public key) and
`ValidatorDescription::verify_signature` (`models/config/params.rs:1407-1413`) of key, data and signature. -/
structure Crypto where
  shortId : List Byte → List Byte
  verify : List Byte → List Byte → List Byte → Bool

/-- `unique_nodes` (`models/block/block_extra.rs:414-425`): a hash map as a list of pairs; inserting replaces. -/
def collectNodes (C : Crypto) : List Validator → List (List Byte × Validator) → List (List Byte × Validator)
  | [], m => m
  | v :: r, m => collectNodes C r ((C.shortId v.publicKey, v) :: m.filter fun p => p.1 != C.shortId v.publicKey)

/-- `unique_nodes.get` -/
def nodeAt (m : List (List Byte × Validator)) (id : List Byte) : Option Validator := (m.find? fun p => p.1 == id).map Prod.snd

/-- The loop of `check_signatures` (`models/block/block_extra.rs:427-436`); the sum is checked in debug builds. -/
def weigh (C : Crypto) (m : List (List Byte × Validator)) (data : List Byte) : List (Except Err (Nat × BlockSignature)) → Nat → Except Err Nat
  | [], w => .ok w
  | .error e :: _, _ => .error e
  | .ok (_, s) :: r, w =>
    match nodeAt m s.nodeIdShort with
    | none => weigh C m data r w
    | some v =>
      if C.verify v.publicKey data s.signature then Vset.add64 w v.weight >>= fun w => weigh C m data r w
      else .error .invalidSignature

/-- `models/block/block_extra.rs:412-439` `check_signatures` -/
def checkSignatures (C : Crypto) (d : Option Cell) (list : List Validator) (data : List Byte) : Except Err Nat :=
  weigh C (collectNodes C list []) data (sigs.entries d) 0

/-- `abi/signature.rs:17-26` `extend_signature_with_id` -/
def extendWithId (data : List Byte) : Option Int → List Byte
  | some id => Boc.beBytes 4 (twos 32 id) ++ data
  | none => data

/-! ### Specification -/

/-- The map that a dictionary of signatures stands for. -/
def Signed (acc : Cell → Bool) (d : Option Cell) (tm : Nat → Option BlockSignature) : Prop :=
  IsDict sigs (fun i => i < 2 ^ 16) (natBits 16) blockSignature.R acc d tm

/-- The validator that an identifier stands for: the last one in the list with that identifier. -/
def nodeFor (C : Crypto) (list : List Validator) (id : List Byte) : Option Validator :=
  list.reverse.find? fun v => C.shortId v.publicKey == id

/-- What a signature adds to the weight. -/
def weightOf (C : Crypto) (list : List Validator) (s : BlockSignature) : Nat :=
  match nodeFor C list s.nodeIdShort with
  | some v => v.weight
  | none => 0

/-- A signature is of a node of the list, or else it does not matter. -/
def Genuine (C : Crypto) (list : List Validator) (data : List Byte) (s : BlockSignature) : Prop :=
  ∀ v, nodeFor C list s.nodeIdShort = some v → C.verify v.publicKey data s.signature = true

/-! ### Lemmas -/

theorem nodeAt_cons (a : List Byte) (v : Validator) (m : List (List Byte × Validator)) (id : List Byte) :
    nodeAt ((a, v) :: m.filter fun p => p.1 != a) id = if a = id then some v else nodeAt m id := by
  unfold nodeAt
  by_cases h : a = id
  · rw [if_pos h, List.find?_cons_of_pos (by simpa using h)]
    rfl
  · rw [if_neg h, List.find?_cons_of_neg (by simpa using h)]
    congr 1
    induction m with
    | nil => rfl
    | cons p m ih =>
      by_cases hp : p.1 = a
      · rw [List.filter_cons_of_neg (by simp [hp]), ih, List.find?_cons_of_neg (by rw [hp]; simpa using h)]
      · rw [List.filter_cons_of_pos (by simp [hp])]
        by_cases hq : p.1 = id
        · rw [List.find?_cons_of_pos (by simp [hq]), List.find?_cons_of_pos (by simp [hq])]
        · rw [List.find?_cons_of_neg (by simp [hq]), List.find?_cons_of_neg (by simp [hq]), ih]

theorem nodeAt_collect (C : Crypto) (id : List Byte) : ∀ (list : List Validator) (m : List (List Byte × Validator)),
    nodeAt (collectNodes C list m) id = (nodeFor C list id).or (nodeAt m id)
  | [], m => rfl
  | v :: r, m => by
    rw [collectNodes, nodeAt_collect C id r, nodeAt_cons]
    unfold nodeFor
    rw [List.reverse_cons, List.find?_append]
    cases h : List.find? (fun v => C.shortId v.publicKey == id) r.reverse with
    | some x => rfl
    | none =>
      by_cases hv : C.shortId v.publicKey = id
      · rw [if_pos hv, List.find?_cons_of_pos (by simp [hv])]; rfl
      · rw [if_neg hv, List.find?_cons_of_neg (by simp [hv])]; rfl

theorem nodeAt_nodes (C : Crypto) (list : List Validator) (id : List Byte) : nodeAt (collectNodes C list []) id = nodeFor C list id := by
  rw [nodeAt_collect]
  exact Option.or_none

theorem weigh_ok (C : Crypto) (list : List Validator) (data : List Byte) : ∀ (l : List (Nat × BlockSignature)) (w : Nat),
    (∀ p ∈ l, Genuine C list data p.2) → w < 2 ^ 64 →
    weigh C (collectNodes C list []) data (l.map .ok) w =
      if w + (l.map fun p => weightOf C list p.2).sum < 2 ^ 64 then .ok (w + (l.map fun p => weightOf C list p.2).sum) else .error .panic
  | [], w, _, hw => by
    simp only [List.map_nil, List.sum_nil, Nat.add_zero]
    rw [if_pos hw]
    rfl
  | (i, s) :: l, w, hg, hw => by
    have hr : ∀ p ∈ l, Genuine C list data p.2 := fun p hp => hg p (List.mem_cons_of_mem _ hp)
    rw [List.map_cons, weigh, nodeAt_nodes, List.map_cons, List.sum_cons]
    cases hn : nodeFor C list s.nodeIdShort with
    | none =>
      have e : weightOf C list s = 0 := by unfold weightOf; rw [hn]
      dsimp only
      rw [weigh_ok C list data l w hr hw, e, Nat.zero_add]
    | some v =>
      have e : weightOf C list s = v.weight := by unfold weightOf; rw [hn]
      dsimp only
      rw [if_pos (hg (i, s) List.mem_cons_self v hn), e]
      unfold Vset.add64
      by_cases hlt : w + v.weight < 2 ^ 64
      · rw [if_pos hlt]
        show weigh C (collectNodes C list []) data (l.map .ok) (w + v.weight) = _
        rw [weigh_ok C list data l _ hr hlt, Nat.add_assoc]
      · rw [if_neg hlt, if_neg (by omega)]
        rfl

theorem weigh_bad (C : Crypto) (list : List Validator) (data : List Byte) : ∀ (l : List (Nat × BlockSignature)) (w : Nat),
    (¬ ∀ p ∈ l, Genuine C list data p.2) →
    weigh C (collectNodes C list []) data (l.map .ok) w = .error .invalidSignature ∨ 
    (weigh C (collectNodes C list []) data (l.map .ok) w = .error .panic ∧ 2 ^ 64 ≤ w + (l.map fun p => weightOf C list p.2).sum)
  | [], w, h => absurd (fun p hp => by cases hp) h
  | (i, s) :: l, w, h => by
    rw [List.map_cons, weigh, nodeAt_nodes, List.map_cons, List.sum_cons]
    cases hn : nodeFor C list s.nodeIdShort with
    | none =>
      have e : weightOf C list s = 0 := by unfold weightOf; rw [hn]
      have hr : ¬ ∀ p ∈ l, Genuine C list data p.2 := fun g => h fun p hp => by
        rcases List.mem_cons.mp hp with rfl | hp
        · intro v hv; rw [hn] at hv; cases hv
        · exact g p hp
      dsimp only
      rw [e, Nat.zero_add]
      exact weigh_bad C list data l w hr
    | some v =>
      have e : weightOf C list s = v.weight := by unfold weightOf; rw [hn]
      dsimp only
      by_cases hv : C.verify v.publicKey data s.signature = true
      · have hr : ¬ ∀ p ∈ l, Genuine C list data p.2 := fun g => h fun p hp => by
          rcases List.mem_cons.mp hp with rfl | hp
          · intro v' hv'; rw [hn] at hv'; injection hv' with e; rw [← e]; exact hv
          · exact g p hp
        rw [if_pos hv, e]
        unfold Vset.add64
        by_cases hlt : w + v.weight < 2 ^ 64
        · rw [if_pos hlt]
          show weigh C (collectNodes C list []) data (l.map .ok) (w + v.weight) = _ ∨ (weigh C (collectNodes C list []) data (l.map .ok) (w + v.weight) = _ ∧ _)
          have := weigh_bad C list data l (w + v.weight) hr
          rw [Nat.add_assoc] at this
          exact this
        · rw [if_neg hlt]
          exact Or.inr ⟨rfl, by omega⟩
      · rw [if_neg hv]
        exact Or.inl rfl

theorem sigs_key : KeyCodes sigs.key (fun i => i < 2 ^ 16) (natBits 16) := Key.u16_codes

theorem sigs_codes : Codes blockSignature.ok sigs.store sigs.load blockSignature.R blockSignature.enc where
  writes := blockSignature_sound.st.writes
  canon := blockSignature_sound.st.canon
  valid := by
    rintro v e ⟨_, _, h1, ⟨_, _, _, h2, _⟩, _⟩
    exact ⟨h1.1, h2.1⟩
  reads := blockSignature_sound.ld.reads
  exact := blockSignature_sound.ld.exact
  safe := blockSignature_sound.ld.safe

theorem sigs_fits (v : BlockSignature) (h : blockSignature.ok v) : (blockSignature.enc v).Fits := by
  obtain ⟨h1, h2⟩ := h
  have e1 : v.nodeIdShort.length = 32 := h1
  have e2 : v.signature.length = 64 := h2
  constructor
  · show (bytesToBits v.nodeIdShort ++ (natBits 4 5 ++ bytesToBits v.signature)).length ≤ 1023
    rw [List.length_append, List.length_append, bytesToBits_length, bytesToBits_length, natBits_length, e1, e2]
    decide
  · show 0 ≤ 4
    omega

/-- The entries that the loop sees. -/
theorem signed_entries {acc : Cell → Bool} {d : Option Cell} {tm : Nat → Option BlockSignature} (h : Signed acc d tm) :
    ∃ l, TListing (fun i => i < 2 ^ 16) (natBits 16) false false tm l ∧ sigs.entries d = l.map .ok :=
  (C57_iter (T := sigs) sigs_key (show 16 ≤ 1023 by decide) sigs_codes sigs_fits acc h).2

theorem sum_eq_of_perm {α : Type} (f : α → Nat) {l l' : List α} (h : l.Perm l') : (l.map f).sum = (l'.map f).sum := (h.map f).sum_nat

/-- The weight of the node with an identifier. -/
def idWeight (C : Crypto) (list : List Validator) (id : List Byte) : Nat :=
  match nodeFor C list id with
  | some v => v.weight
  | none => 0

theorem nodeFor_cons (C : Crypto) (v : Validator) (r : List Validator) (id : List Byte) :
    nodeFor C (v :: r) id = (nodeFor C r id).or (if C.shortId v.publicKey = id then some v else none) := by
  unfold nodeFor
  rw [List.reverse_cons, List.find?_append]
  congr 1
  by_cases h : C.shortId v.publicKey = id
  · rw [if_pos h, List.find?_cons_of_pos (by simp [h])]
  · rw [if_neg h, List.find?_cons_of_neg (by simp [h])]; rfl

theorem nodeFor_mem {C : Crypto} {list : List Validator} {id : List Byte} {v : Validator} (h : nodeFor C list id = some v) :
    v ∈ list ∧ C.shortId v.publicKey = id := by
  unfold nodeFor at h
  exact ⟨List.mem_reverse.mp (List.mem_of_find?_eq_some h), by simpa using List.find?_some h⟩

theorem idWeight_cons (C : Crypto) (v : Validator) (r : List Validator) (hd : ∀ b ∈ r, C.shortId v.publicKey ≠ C.shortId b.publicKey) (id : List Byte) :
    idWeight C (v :: r) id = idWeight C r id + if C.shortId v.publicKey = id then v.weight else 0 := by
  unfold idWeight
  rw [nodeFor_cons]
  cases hn : nodeFor C r id with
  | some x =>
    obtain ⟨h1, h2⟩ := nodeFor_mem hn
    have hne : ¬ C.shortId v.publicKey = id := fun e => hd x h1 (e.trans h2.symm)
    rw [if_neg hne, if_neg hne]
    rfl
  | none =>
    by_cases h : C.shortId v.publicKey = id
    · rw [if_pos h, if_pos h]; show v.weight = 0 + v.weight; omega
    · rw [if_neg h, if_neg h]; rfl

theorem sum_add {α : Type} (f g : α → Nat) : ∀ l : List α, (l.map fun x => f x + g x).sum = (l.map f).sum + (l.map g).sum
  | [] => rfl
  | x :: l => by
    simp only [List.map_cons, List.sum_cons]
    rw [sum_add f g l]
    omega

theorem sum_one (a : List Byte) (w : Nat) : ∀ ids : List (List Byte), ids.Nodup →
    (ids.map fun i => if a = i then w else 0).sum = if a ∈ ids then w else 0
  | [], _ => rfl
  | i :: ids, h => by
    rw [List.nodup_cons] at h
    rw [List.map_cons, List.sum_cons, sum_one a w ids h.2]
    by_cases e : a = i
    · rw [if_pos e, if_neg (e ▸ h.1), if_pos (e ▸ List.mem_cons_self)]; omega
    · by_cases e2 : a ∈ ids
      · rw [if_neg e, if_pos e2, if_pos (List.mem_cons_of_mem _ e2)]; omega
      · rw [if_neg e, if_neg e2, if_neg (fun hm => by rcases List.mem_cons.mp hm with x | x; exacts [e x, e2 x])]

/-- The sum over signers is the sum over the validators that have signed. -/
theorem sum_signers (C : Crypto) (ids : List (List Byte)) (hi : ids.Nodup) : ∀ (list : List Validator),
    (list.Pairwise fun a b => C.shortId a.publicKey ≠ C.shortId b.publicKey) →
    (ids.map (idWeight C list)).sum = ((list.filter fun v => decide (C.shortId v.publicKey ∈ ids)).map Validator.weight).sum
  | [], _ => by
    show (ids.map fun _ => 0).sum = 0
    induction ids with
    | nil => rfl
    | cons i ids ih => rw [List.map_cons, List.sum_cons, ih (List.nodup_cons.mp hi).2]; rfl
  | v :: r, h => by
    rw [List.pairwise_cons] at h
    have e : idWeight C (v :: r) = fun i => idWeight C r i + if C.shortId v.publicKey = i then v.weight else 0 :=
      funext fun i => idWeight_cons C v r h.1 i
    rw [e, sum_add, sum_signers C ids hi r h.2, sum_one _ _ ids hi]
    by_cases hm : C.shortId v.publicKey ∈ ids
    · rw [if_pos hm, List.filter_cons_of_pos (by simpa using hm), List.map_cons, List.sum_cons]; omega
    · rw [if_neg hm, List.filter_cons_of_neg (by simpa using hm)]; omega

/-- Identifiers that are different tell nodes apart. -/
theorem same_node (C : Crypto) : ∀ {list : List Validator}, (list.Pairwise fun a b => C.shortId a.publicKey ≠ C.shortId b.publicKey) →
    ∀ {x v : Validator}, x ∈ list → v ∈ list → C.shortId x.publicKey = C.shortId v.publicKey → x = v
  | [], _, _, _, hx, _, _ => by cases hx
  | a :: r, h, x, v, hx, hv, e => by
    rw [List.pairwise_cons] at h
    rcases List.mem_cons.mp hx with hx | hx
    · rcases List.mem_cons.mp hv with hv | hv
      · rw [hx, hv]
      · exact absurd (hx ▸ e) (h.1 v hv)
    · rcases List.mem_cons.mp hv with hv | hv
      · exact absurd (hv ▸ e).symm (h.1 x hx)
      · exact same_node C h.2 hx hv e

theorem sum_filter_le (p : Validator → Bool) : ∀ list : List Validator, ((list.filter p).map Validator.weight).sum ≤ (list.map Validator.weight).sum
  | [] => Nat.le_refl _
  | v :: r => by
    have := sum_filter_le p r
    rw [List.map_cons, List.sum_cons]
    by_cases h : p v = true
    · rw [List.filter_cons_of_pos h, List.map_cons, List.sum_cons]; omega
    · rw [List.filter_cons_of_neg h]; omega

end Sigs
end Verif
