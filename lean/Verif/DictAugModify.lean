import Verif.DictAugBulk
import Verif.DictModProps
/-
Augmented dictionaries: bulk modification.
-/
set_option linter.unusedVariables false
set_option linter.unusedSimpArgs false
namespace Verif

/-! ### Model -/

/-- `dict/aug.rs:390-418` `modify_with_sorted_iter_ext` (and `373-384`): the result and the dictionary left behind. The keys are bit strings compared
lexicographically; errors of the callback that extracts the value are not modelled. -/
def AugDict.modify {A : Type} (T : AugType A) (acc : Cell → Bool) (n : Nat) (s : AugDict A) (es : List (Bits × Option (A × Sl))) : Except Err Bool × AugDict A :=
  match modifyDict (some T.compAdd) acc n lexBits s.root (es.map fun e => (e.1, e.2.map fun p => (T.store p.1).then p.2)) with
  | (.error e, d) => (.error e, ⟨d, s.extra⟩)
  | (.ok false, d) => (.ok false, ⟨d, s.extra⟩)
  | (.ok true, d) => match T.rootExtra n d with
    | .error e => (.error e, ⟨d, s.extra⟩)
    | .ok x => (.ok true, ⟨d, x⟩)

/-! ### Specification -/

/-- The map after the modifications, one after the other. -/
def AMap.modified {A : Type} : AMap A → List (Bits × Option (A × Sl)) → AMap A
  | m, [] => m
  | m, (k, v) :: es => AMap.modified (fun k' => if k' = k then v else m k') es

/-! ### Lemmas -/

theorem stored_modified {A : Type} (T : AugType A) : ∀ (es : List (Bits × Option (A × Sl))) (m : AMap A), es.Pairwise (fun a b => lexBits a.1 b.1 = .lt) → ∀ k,
    (m.modified es).stored T k = DMap.modified (m.stored T) (es.map fun e => (e.1, e.2.map fun p => (T.store p.1).then p.2)) k
  | [], m, _, k => rfl
  | (key, v) :: es, m, hs, k => by
    rw [List.pairwise_cons] at hs
    have ih := stored_modified T es (fun k' => if k' = key then v else m k') hs.2 k
    have hnone : modOf (es.map fun e => (e.1, e.2.map fun p => (T.store p.1).then p.2)) key = none := by
      refine modOf_none fun e he heq => ?_
      obtain ⟨e', he', rfl⟩ := List.mem_map.mp he
      have := hs.1 e' he'
      have heq : e'.1 = key := heq
      rw [heq, lexBits_refl] at this
      cases this
    show (AMap.modified (fun k' => if k' = key then v else m k') es).stored T k = Option.getD (if k = key then some _ else modOf (es.map fun e => (e.1, e.2.map fun p => (T.store p.1).then p.2)) k) (m.stored T k)
    rw [ih]
    show Option.getD (modOf (es.map fun e => (e.1, e.2.map fun p => (T.store p.1).then p.2)) k) (Option.map _ (if k = key then v else m k)) = _
    by_cases hk : k = key
    · rw [if_pos hk, if_pos hk, hk, hnone]; rfl
    · rw [if_neg hk, if_neg hk]; rfl

theorem modified_valid {A : Type} {valid : A → Prop} {n : Nat} : ∀ (es : List (Bits × Option (A × Sl))) (m : AMap A), (∀ k p, k.length = n → m k = some p → valid p.1) →
    (∀ e ∈ es, ∀ p, e.2 = some p → valid p.1) → ∀ k p, k.length = n → m.modified es k = some p → valid p.1
  | [], m, hm, _, k, p, hk, h => hm k p hk h
  | (key, v) :: es, m, hm, hv, k, p, hk, h => by
    refine modified_valid es (fun k' => if k' = key then v else m k') ?_ (fun e he => hv e (List.mem_cons_of_mem _ he)) k p hk h
    intro k' p' hk' h'
    by_cases hkk : k' = key
    · rw [if_pos hkk] at h'; exact hv (key, v) List.mem_cons_self p' h'
    · rw [if_neg hkk] at h'; exact hm k' p' hk' h'

/-! ### Properties -/

/-- Bulk modification (in strictly ascending order) gives the dictionary of the modified map with the right extra at every fork and at the root. It fails only if
no such tree exists, and then leaves everything as it was. -/
theorem C33_modify {A : Type} {T : AugType A} {valid : A → Prop} {comb : A → A → Option A} (law : T.Lawful valid comb) (acc : Cell → Bool) {n : Nat} (hn : n ≤ 1023)
    {s : AugDict A} {m : AMap A} (h : AugDict.Is T valid comb acc n s m) (es : List (Bits × Option (A × Sl))) (hlen : ∀ e ∈ es, e.1.length = n)
    (hasc : es.Pairwise fun a b => lexBits a.1 b.1 = .lt) (hv : ∀ e ∈ es, ∀ p, e.2 = some p → valid p.1) :
    (∃ b, (s.modify T acc n es).1 = .ok b ∧ AugDict.Is T valid comb acc n (s.modify T acc n es).2 (m.modified es)) ∨
    ((∃ e, (s.modify T acc n es).1 = .error e) ∧ (s.modify T acc n es).2 = s ∧ ∀ d, ¬ RepresentsX (some T.compAdd) acc n d ((m.modified es).stored T)) := by
  have hmv := modified_valid es m h.valid hv
  have hst : (m.modified es).stored T = DMap.modified (m.stored T) (es.map fun e => (e.1, e.2.map fun p => (T.store p.1).then p.2)) := funext (stored_modified T es m hasc)
  have hmod := C28_modify (some T.compAdd) acc hn h.tree (es.map fun e => (e.1, e.2.map fun p => (T.store p.1).then p.2))
    (fun e he => by obtain ⟨e', h1, rfl⟩ := List.mem_map.mp he; exact hlen e' h1) (List.pairwise_map.mpr hasc)
  rw [← hst] at hmod
  have hfalse : ∀ d, modifyDict (some T.compAdd) acc n lexBits s.root (es.map fun e => (e.1, e.2.map fun p => (T.store p.1).then p.2)) = (.ok false, d) →
      d = s.root ∧ (s.root = none ∨ es = []) := by
    intro d hd
    have hlen' : ∀ e ∈ es.map (fun e => (e.1, e.2.map fun p => (T.store p.1).then p.2)), e.1.length = n :=
      fun e he => by obtain ⟨e', h1, rfl⟩ := List.mem_map.mp he; exact hlen e' h1
    have hord : StrictlyOrdered (es.map fun e => (e.1, e.2.map fun p => (T.store p.1).then p.2)) := List.pairwise_map.mpr hasc
    have htree := h.tree
    cases hr : s.root with
    | none =>
      rw [hr] at hd
      unfold modifyDict at hd
      dsimp only at hd
      split at hd
      · cases hd
      · rename_i d' _
        injection hd with h1 h2
        subst h2
        cases d' with
        | none => exact ⟨rfl, Or.inl rfl⟩
        | some c => cases h1
    | some c =>
      rw [hr] at hd htree
      cases hes : es with
      | nil =>
        rw [hes] at hd
        refine ⟨?_, Or.inr rfl⟩
        injection hd with _ h2; exact h2.symm
      | cons e es' =>
        have hf := modFull_spec (some T.compAdd) acc hn htree (es := es.map fun e => (e.1, e.2.map fun p => (T.store p.1).then p.2)) (by rw [hes]; simp) hlen' hord.ordered
        unfold modifyDict at hd
        dsimp only at hd
        cases hx : modFull (some T.compAdd) acc n lexBits c (es.map fun e => (e.1, e.2.map fun p => (T.store p.1).then p.2)) with
        | error x => rw [hx] at hd; cases hd
        | ok x =>
          rw [hx] at hd hf
          cases x with
          | none => exact hf.elim
          | some d => cases hd
  unfold AugDict.modify
  generalize modifyDict (some T.compAdd) acc n lexBits s.root (es.map fun e => (e.1, e.2.map fun p => (T.store p.1).then p.2)) = out at *
  obtain ⟨r, d⟩ := out
  cases r with
  | error e =>
    obtain ⟨h1, h2⟩ := hmod
    refine Or.inr ⟨⟨e, rfl⟩, ?_, h2⟩
    show (⟨d, s.extra⟩ : AugDict A) = s
    rw [h1]
  | ok b =>
    have hmod : RepresentsX (some T.compAdd) acc n d ((m.modified es).stored T) := hmod
    obtain ⟨x, hx, his⟩ := rootExtra_spec law hn hmod hmv
    cases b with
    | true =>
      left
      refine ⟨true, ?_, ?_⟩
      · show (match T.rootExtra n d with | .error e => ((.error e, ⟨d, s.extra⟩) : Except Err Bool × AugDict A) | .ok x => (.ok true, ⟨d, x⟩)).1 = _
        rw [hx]
      · show AugDict.Is T valid comb acc n (match T.rootExtra n d with | .error e => ((.error e, ⟨d, s.extra⟩) : Except Err Bool × AugDict A) | .ok x => (.ok true, ⟨d, x⟩)).2 _
        rw [hx]; exact his
    | false =>
      obtain ⟨hd, hcase⟩ := hfalse d rfl
      subst hd
      left
      refine ⟨false, rfl, ?_⟩
      show AugDict.Is T valid comb acc n ⟨s.root, s.extra⟩ (m.modified es)
      rcases hcase with hnone | hnil
      · have hm : ∀ k, k.length = n → m k = none := by
          intro k hk
          have := h.tree
          rw [hnone] at this
          exact Option.map_eq_none_iff.mp (this k hk)
        rw [hnone] at hx his ⊢
        have hx : Except.ok T.dflt = (.ok x : Except Err A) := hx
        injection hx with hx
        rw [h.empty hm, hx]
        exact his
      · rw [hnil]; exact h

/-- The largest entry is removed, another one is replaced, a third one is added. -/
example : (AugDict.build maxByteAug (fun _ => true) 3
      [([false, false, true], 7, ⟨[true], []⟩), ([false, true, true], 9, ⟨[], []⟩), ([true, false, false], 200, ⟨[], []⟩), ([true, false, true], 3, ⟨[], []⟩)] >>= fun s =>
    let r := s.modify maxByteAug (fun _ => true) 3 [([false, true, true], some (11, ⟨[], []⟩)), ([true, false, false], none), ([true, true, true], some (30, ⟨[], []⟩))]
    r.1 >>= fun b => Except.ok (b, r.2.extra)).toOption = some (true, 30) := by decide +kernel

end Verif
