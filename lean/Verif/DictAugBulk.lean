import Verif.DictAugProps
import Verif.DictBuildProps
/-
Augmented dictionaries: construction from sorted entries, splitting, merging.
-/
set_option linter.unusedVariables false
set_option linter.unusedSimpArgs false
namespace Verif

/-! ### Model -/

/-- A dictionary with the recomputed root extra, or the error of the recomputation. -/
def AugType.withExtra {A : Type} (T : AugType A) (n : Nat) (d : Option Cell) : Except Err (AugDict A) := (T.rootExtra n d).map fun x => ⟨d, x⟩

/-- `dict/aug.rs:318-341` `try_from_btree`, `344-367` `try_from_sorted_slice`. The keys are bit strings compared lexicographically. -/
def AugDict.build {A : Type} (T : AugType A) (acc : Cell → Bool) (n : Nat) (es : List (Bits × A × Sl)) : Except Err (AugDict A) :=
  buildDict (some T.compAdd) acc n lexBits (es.map fun e => (e.1, (T.store e.2.1).then e.2.2)) >>= T.withExtra n

/-- `dict/aug.rs:639-663` `split_by_prefix_ext` -/
def AugDict.split {A : Type} (T : AugType A) (acc : Cell → Bool) (n : Nat) (s : AugDict A) (p : Bits) : Except Err (AugDict A × AugDict A) :=
  dictSplit acc s.root n p >>= fun lr => T.withExtra n lr.1 >>= fun l => T.withExtra n lr.2 >>= fun r => .ok (l, r)

/-- `dict/aug.rs:672-694` `merge_with_right_sibling_ext` -/
def AugDict.mergeRight {A : Type} (T : AugType A) (acc : Cell → Bool) (n : Nat) (s r : AugDict A) : Except Err (AugDict A) :=
  mergeSiblings (some T.compAdd) acc n s.root r.root >>= T.withExtra n

/-! ### Specification -/

/-- The entry of a key in a list; the first one counts. -/
def augEntryOf {A : Type} (es : List (Bits × A × Sl)) : AMap A := fun k => (es.find? fun e => e.1 == k).map Prod.snd

/-- The part of a map below a prefix. -/
def AMap.under {A : Type} (p : Bits) (m : AMap A) : AMap A := fun k => if p <+: k then m k else none

/-! ### Lemmas -/

theorem withExtra_spec {A : Type} {T : AugType A} {valid : A → Prop} {comb : A → A → Option A} (law : T.Lawful valid comb) {acc : Cell → Bool} {n : Nat} (hn : n ≤ 1023)
    {d : Option Cell} {m : AMap A} (hd : RepresentsX (some T.compAdd) acc n d (m.stored T)) (hv : ∀ k p, k.length = n → m k = some p → valid p.1) :
    ∃ s, T.withExtra n d = .ok s ∧ AugDict.Is T valid comb acc n s m ∧ s.root = d := by
  obtain ⟨x, h1, h2⟩ := rootExtra_spec law hn hd hv
  refine ⟨⟨d, x⟩, ?_, h2, rfl⟩
  unfold AugType.withExtra
  rw [h1]
  rfl

theorem stored_entryOf {A : Type} (T : AugType A) : ∀ (es : List (Bits × A × Sl)) (k : Bits),
    (augEntryOf es).stored T k = entryOf (es.map fun e => (e.1, (T.store e.2.1).then e.2.2)) k
  | [], k => rfl
  | e :: es, k => by
    have ih := stored_entryOf T es k
    show ((augEntryOf (e :: es) k).map _) = (if k = e.1 then some ((T.store e.2.1).then e.2.2) else entryOf (es.map fun e => (e.1, (T.store e.2.1).then e.2.2)) k)
    unfold augEntryOf
    rw [List.find?_cons]
    by_cases h : k = e.1
    · rw [if_pos h, show (e.1 == k) = true by simp [h]]; rfl
    · rw [if_neg h, show (e.1 == k) = false by simp [Ne.symm h]]; exact ih

theorem stored_under {A : Type} (T : AugType A) (p : Bits) (m : AMap A) : (AMap.under p m).stored T = Verif.under p (m.stored T) := by
  funext k
  unfold AMap.stored AMap.under Verif.under
  split <;> rfl

theorem stored_orElse {A : Type} (T : AugType A) (m1 m2 : AMap A) : (AMap.stored T fun k => m1 k <|> m2 k) = fun k => m1.stored T k <|> m2.stored T k := by
  funext k
  unfold AMap.stored
  show (m1 k <|> m2 k).map _ = _
  cases m1 k <;> rfl

/-! ## C33 for bulk operations -/

/-- Building from entries in ascending order gives the dictionary of their map with the right extra at every fork and at the root; it fails only if no such tree exists. -/
theorem C33_build {A : Type} {T : AugType A} {valid : A → Prop} {comb : A → A → Option A} (law : T.Lawful valid comb) (acc : Cell → Bool) {n : Nat} (hn : n ≤ 1023)
    (es : List (Bits × A × Sl)) (hlen : ∀ e ∈ es, e.1.length = n) (hasc : es.Pairwise fun a b => lexBits a.1 b.1 ≠ .gt) (hv : ∀ e ∈ es, valid e.2.1) :
    (∃ s, AugDict.build T acc n es = .ok s ∧ AugDict.Is T valid comb acc n s (augEntryOf es)) ∨
    ((∃ e, AugDict.build T acc n es = .error e) ∧ ∀ d, ¬ RepresentsX (some T.compAdd) acc n d ((augEntryOf es).stored T)) := by
  have h := C27_build (some T.compAdd) acc hn (es.map fun e => (e.1, (T.store e.2.1).then e.2.2))
    (fun e he => by obtain ⟨e', h1, rfl⟩ := List.mem_map.mp he; exact hlen e' h1) (List.pairwise_map.mpr hasc)
  have hst : (augEntryOf es).stored T = entryOf (es.map fun e => (e.1, (T.store e.2.1).then e.2.2)) := funext (stored_entryOf T es)
  rw [← hst] at h
  unfold AugDict.build
  cases hb : buildDict (some T.compAdd) acc n lexBits (es.map fun e => (e.1, (T.store e.2.1).then e.2.2)) with
  | error e =>
    rw [hb] at h
    exact Or.inr ⟨⟨e, rfl⟩, h⟩
  | ok d =>
    rw [hb] at h
    obtain ⟨s, h1, h2, _⟩ := withExtra_spec law hn (m := augEntryOf es) h (fun k p hk hp => by
      unfold augEntryOf at hp
      cases hf : es.find? fun e => e.1 == k with
      | none => rw [hf] at hp; cases hp
      | some e =>
        rw [hf] at hp
        injection hp with hp
        rw [← hp]
        exact hv e (List.mem_of_find?_eq_some hf))
    exact Or.inl ⟨s, h1, h2⟩

/-- Splitting at a prefix of all keys: both parts stand for their part of the map, with their own root extras. -/
theorem C33_split {A : Type} {T : AugType A} {valid : A → Prop} {comb : A → A → Option A} (law : T.Lawful valid comb) (acc : Cell → Bool) {n : Nat} (hn : n ≤ 1023)
    {s : AugDict A} {m : AMap A} (h : AugDict.Is T valid comb acc n s m) {p : Bits} (hp : p.length < n) (hall : ∀ k, k.length = n → m k ≠ none → p <+: k) :
    (∃ l r, s.split T acc n p = .ok (l, r) ∧ AugDict.Is T valid comb acc n l (m.under (p ++ [false])) ∧ AugDict.Is T valid comb acc n r (m.under (p ++ [true]))) ∨
    ((∃ e, s.split T acc n p = .error e) ∧ ∃ bit, ∀ d, ¬ RepresentsX (some T.compAdd) acc n d ((m.under (p ++ [bit])).stored T)) := by
  have hv : ∀ bit k q, k.length = n → m.under (p ++ [bit]) k = some q → valid q.1 := by
    intro bit k q hk hq
    unfold AMap.under at hq
    split at hq
    · exact h.valid k q hk hq
    · cases hq
  have hs := C29_split (some T.compAdd) acc hn h.tree hp (fun k hk hne => hall k hk (fun hm => hne (by unfold AMap.stored; rw [hm]; rfl)))
  unfold AugDict.split
  cases hd : dictSplit acc s.root n p with
  | error e =>
    rw [hd] at hs
    obtain ⟨bit, hs⟩ := hs
    exact Or.inr ⟨⟨e, rfl⟩, bit, fun d hd => hs d (stored_under T _ m ▸ hd)⟩
  | ok lr =>
    rw [hd] at hs
    obtain ⟨l, r⟩ := lr
    obtain ⟨h1, h2⟩ := hs
    rw [← stored_under] at h1 h2
    obtain ⟨l', g1, g2, _⟩ := withExtra_spec law hn h1 (hv false)
    obtain ⟨r', g3, g4, _⟩ := withExtra_spec law hn h2 (hv true)
    refine Or.inl ⟨l', r', ?_, g2, g4⟩
    show (T.withExtra n l >>= fun l => T.withExtra n r >>= fun r => .ok (l, r)) = _
    rw [g1, g3]
    rfl

/-- Merging siblings: the union with the right extras; it works exactly for siblings whose union has a tree. -/
theorem C33_merge {A : Type} {T : AugType A} {valid : A → Prop} {comb : A → A → Option A} (law : T.Lawful valid comb) (acc : Cell → Bool) {n : Nat} (hn : n ≤ 1023)
    {s1 s2 : AugDict A} {m1 m2 : AMap A} (h1 : AugDict.Is T valid comb acc n s1 m1) (h2 : AugDict.Is T valid comb acc n s2 m2) :
    (∃ s, s1.mergeRight T acc n s2 = .ok s ∧ AugDict.Is T valid comb acc n s (fun k => m1 k <|> m2 k)) ∨
    ((∃ e, s1.mergeRight T acc n s2 = .error e) ∧
      (¬ Siblings n (m1.stored T) (m2.stored T) ∨ ∀ d, ¬ RepresentsX (some T.compAdd) acc n d (AMap.stored T fun k => m1 k <|> m2 k))) := by
  have hv : ∀ k q, k.length = n → (m1 k <|> m2 k) = some q → valid q.1 := by
    intro k q hk hq
    cases hm : m1 k with
    | none => rw [hm] at hq; exact h2.valid k q hk hq
    | some p => rw [hm] at hq; injection hq with hq; exact hq ▸ h1.valid k p hk hm
  have fin : ∀ d, mergeSiblings (some T.compAdd) acc n s1.root s2.root = .ok d → RepresentsX (some T.compAdd) acc n d (AMap.stored T fun k => m1 k <|> m2 k) →
      ∃ s, s1.mergeRight T acc n s2 = .ok s ∧ AugDict.Is T valid comb acc n s (fun k => m1 k <|> m2 k) := by
    intro d e hd
    obtain ⟨s, g1, g2, _⟩ := withExtra_spec law hn hd hv
    refine ⟨s, ?_, g2⟩
    unfold AugDict.mergeRight
    rw [e]
    exact g1
  have t1 := h1.tree
  have t2 := h2.tree
  cases hr1 : s1.root with
  | none =>
    left
    rw [hr1] at t1
    refine fin s2.root (by rw [hr1]; exact (C29_merge_empty _ acc n s2.root).2) (representsX_congr t2 (fun k hk => ?_))
    rw [stored_orElse]
    show (m1.stored T k <|> m2.stored T k) = _
    rw [t1 k hk]; rfl
  | some c1 =>
    cases hr2 : s2.root with
    | none =>
      left
      rw [hr2] at t2
      refine fin s1.root (by rw [hr2]; exact (C29_merge_empty _ acc n s1.root).1) (representsX_congr t1 (fun k hk => ?_))
      rw [stored_orElse]
      show (m1.stored T k <|> m2.stored T k) = _
      rw [t2 k hk, orElse_none]
    | some c2 =>
      rw [hr1] at t1
      rw [hr2] at t2
      have hm := C29_merge (some T.compAdd) acc hn t1 t2
      rw [hr1, hr2] at fin
      cases hx : mergeSiblings (some T.compAdd) acc n (some c1) (some c2) with
      | error e =>
        rw [hx] at hm
        refine Or.inr ⟨⟨e, ?_⟩, ?_⟩
        · unfold AugDict.mergeRight
          rw [hr1, hr2, hx]; rfl
        · rw [stored_orElse]; exact hm
      | ok d =>
        rw [hx] at hm
        exact Or.inl (fin d hx (by rw [stored_orElse]; exact hm.2))

/-! ### Non-vacuity -/

/-- Extras are one-byte numbers combined with the maximum. -/
def maxByteAug : AugType (BitVec 8) where
  compAdd l r := .ok ⟨(List.range 8).map fun i => (max (natOfBits (l.bits.take 8)) (natOfBits (r.bits.take 8))).testBit (7 - i), []⟩
  load s := .ok (BitVec.ofNat 8 (natOfBits (s.bits.take 8)))
  store a := ⟨(List.range 8).map fun i => a.toNat.testBit (7 - i), []⟩
  dflt := 0

/-- Four entries: the root extra, the extras of the halves of a split and the extra of the merged dictionary. -/
example : (AugDict.build maxByteAug (fun _ => true) 3
      [([false, false, true], 7, ⟨[true], []⟩), ([false, true, true], 9, ⟨[], []⟩), ([true, false, false], 200, ⟨[], []⟩), ([true, false, true], 3, ⟨[], []⟩)] >>= fun s =>
    s.split maxByteAug (fun _ => true) 3 [] >>= fun lr => lr.1.mergeRight maxByteAug (fun _ => true) 3 lr.2 >>= fun u =>
      Except.ok (s.extra, lr.1.extra, lr.2.extra, u.extra)).toOption = some (200, 9, 200, 200) := by decide +kernel

end Verif
