import Verif.DictSplit
import Verif.DictBuildProps
import Verif.DictIterProps
/-
C31: merging one dictionary into another.
-/
set_option linter.unusedVariables false
set_option linter.unusedSimpArgs false
namespace Verif

theorem yields_nil {σ α : Type} {next : σ → Option α × σ} {it : σ} (h : Yields next it []) : (next it).1 = none := by
  have := h 1
  simpa [calls] using this

theorem yields_cons {σ α : Type} {next : σ → Option α × σ} {it : σ} {x : α} {l : List α} (h : Yields next it (x :: l)) :
    (next it).1 = some x ∧ Yields next (next it).2 l := by
  constructor
  · have := h 1
    simpa [calls] using this
  · intro k
    have := h (k + 1)
    simp only [calls, List.map_cons, List.cons_append, List.take_succ_cons, List.cons.injEq] at this
    rw [this.2]
    rw [List.replicate_succ', ← List.append_assoc, List.take_append_of_le_length (by simp)]

/-- Overwrite a map with a list of entries, one after the other. -/
def DMap.over (m : DMap) : List (Bits × Sl) → DMap
  | [] => m
  | (k, v) :: l => (m.put k (some v)).over l

/-- What the loop does: the entries are written in order; at an entry that cannot be written the loop stops. -/
theorem mergeGo_spec (acc : Cell → Bool) {n : Nat} (hn : n ≤ 1023) : ∀ (l : List (Bits × Sl)) (fuel : Nat) (it : RawIter) {d : Option Cell} {m : DMap},
    l.length < fuel → (∀ e ∈ l, e.1.length = n) → Yields RawIter.next it (l.map .ok) → RepresentsC acc n d m →
    ((dictMergeGo acc fuel it d).1 = .ok () ∧ RepresentsC acc n (dictMergeGo acc fuel it d).2 (m.over l)) ∨
    (∃ l1 k v l2, l = l1 ++ (k, v) :: l2 ∧ (∃ e, (dictMergeGo acc fuel it d).1 = .error e) ∧ RepresentsC acc n (dictMergeGo acc fuel it d).2 (m.over l1) ∧
      ∀ d', ¬ RepresentsC acc n d' ((m.over l1).put k (some v)))
  | [], fuel + 1, it, d, m, _, _, hy, hd => by
    left
    have := yields_nil hy
    rw [dictMergeGo]
    generalize it.next = r at this
    obtain ⟨r1, r2⟩ := r
    simp only at this
    subst this
    exact ⟨rfl, hd⟩
  | (k, v) :: l, fuel + 1, it, d, m, hf, hlen, hy, hd => by
    have hk : k.length = n := hlen (k, v) List.mem_cons_self
    obtain ⟨h1, h2⟩ := yields_cons hy
    have hgo : dictMergeGo acc (fuel + 1) it d = match dictInsert acc d k n v .set with
        | (.ok _, d') => dictMergeGo acc fuel it.next.2 d'
        | (.error e, d') => (.error e, d') := by
      rw [dictMergeGo]
      generalize it.next = r at h1
      obtain ⟨r1, r2⟩ := r
      simp only at h1
      subst h1
      dsimp only
      rw [hk]
      cases dictInsert acc d k n v .set with
      | mk a b => cases a <;> rfl
    rcases C22_step acc hn hd (.insert .set k v) with ⟨_, s1, s2⟩ | ⟨hno, ⟨e, s1⟩, s2⟩
    · simp only [DOp.run] at s1 s2
      rw [hgo]
      generalize dictInsert acc d k n v .set = r at s1 s2
      obtain ⟨r1, d1⟩ := r
      cases r1 with
      | error e => cases s1
      | ok b =>
        have s2 : RepresentsC acc n d1 (m.put k (some v)) := s2
        rcases mergeGo_spec acc hn l fuel it.next.2 (by simp at hf; omega) (fun e he => hlen e (List.mem_cons_of_mem _ he)) h2 s2 with ⟨a1, a2⟩ | ⟨l1, k', v', l2, b1, b2, b3, b4⟩
        · exact Or.inl ⟨a1, a2⟩
        · exact Or.inr ⟨(k, v) :: l1, k', v', l2, by rw [b1]; rfl, b2, b3, b4⟩
    · right
      simp only [DOp.run] at s1 s2
      rw [hgo]
      generalize dictInsert acc d k n v .set = r at s1 s2
      obtain ⟨r1, d1⟩ := r
      cases r1 with
      | ok b => cases s1
      | error e' =>
        refine ⟨[], k, v, l, rfl, ⟨e', rfl⟩, ?_, fun d' hd' => ?_⟩
        · have s2 : d1 = d := s2
          rw [s2]; exact hd
        · rcases hno with h | h
          · exact h hk
          · exact h ⟨d', hd'⟩

theorem over_lookup (m : DMap) : ∀ (l : List (Bits × Sl)) (m : DMap) (k : Bits), l.Pairwise (fun p q => p.1 ≠ q.1) → m.over l k = (entryOf l k <|> m k)
  | [], m, k, _ => rfl
  | (k', v) :: l, m, k, h => by
    rw [List.pairwise_cons] at h
    rw [DMap.over, over_lookup m l _ k h.2, entryOf]
    by_cases hk : k = k'
    · rw [if_pos hk]
      have : entryOf l k = none := by
        have hne : ∀ (l : List (Bits × Sl)), (∀ p ∈ l, k' ≠ p.1) → entryOf l k = none := by
          intro l
          induction l with
          | nil => intro _; rfl
          | cons p l ih =>
            intro h
            obtain ⟨a, b⟩ := p
            rw [entryOf, if_neg (by rw [hk]; exact h (a, b) List.mem_cons_self)]
            exact ih fun p hp => h p (List.mem_cons_of_mem _ hp)
        exact hne l h.1
      rw [this]
      unfold DMap.put
      rw [if_pos hk]; rfl
    · rw [if_neg hk]
      unfold DMap.put
      rw [if_neg hk]

theorem entryOf_mem {l : List (Bits × Sl)} {k : Bits} (h : l.Pairwise (fun p q => p.1 ≠ q.1)) (v : Sl) : entryOf l k = some v ↔ (k, v) ∈ l := by
  induction l with
  | nil => simp [entryOf]
  | cons p l ih =>
    obtain ⟨a, b⟩ := p
    rw [List.pairwise_cons] at h
    rw [entryOf]
    by_cases hk : k = a
    · rw [if_pos hk]
      constructor
      · intro hv; injection hv with hv; rw [hk, hv]; exact List.mem_cons_self
      · intro hm
        rcases List.mem_cons.mp hm with e | e
        · injection e with e1 e2; rw [e2]
        · exact absurd hk.symm (h.1 (k, v) e)
    · rw [if_neg hk, ih h.2]
      constructor
      · exact List.mem_cons_of_mem _
      · intro hm
        rcases List.mem_cons.mp hm with e | e
        · injection e with e1 e2; exact absurd e1 hk
        · exact e

theorem listing_distinct {n : Nat} {m : DMap} {l : List (Bits × Sl)} (h : Listing false false n m l) : l.Pairwise (fun p q => p.1 ≠ q.1) := by
  have hd : l.Pairwise (fun p q => p.1 ≠ q.1) := h.1.imp (fun {p q} hb e => by
    rw [e] at hb
    exact keyBefore_irrefl _ _ _ hb)
  exact hd

theorem representsC_congr {acc : Cell → Bool} {n : Nat} {d : Option Cell} {m m' : DMap} (h : RepresentsC acc n d m)
    (hm : ∀ k, k.length = n → m' k = m k) : RepresentsC acc n d m' := by
  cases d with
  | none => exact fun k hk => (hm k hk).trans (h k hk)
  | some c =>
    obtain ⟨t, a, b, c, e, f⟩ := h
    exact ⟨t, a, b, c, e, fun k hk => (hm k hk).trans (f k hk)⟩

/-- Merging, apart from the check of the roots: on success the left dictionary has the union of both maps, with the
values of the right one where both have the key. If it fails, some entries, the first ones of the right dictionary,
have been written, and the next one could not be. -/
theorem C31_merge_partial (acc : Cell → Bool) {n : Nat} (hn : n ≤ 1023) {l r : Cell} {m1 m2 : DMap} (h1 : RepresentsC acc n (some l) m1)
    (h2 : RepresentsC acc n (some r) m2) (hcheck : l.bits.length = r.bits.length ∨ l.bits.length = n) :
    ∃ N es, Listing false false n m2 es ∧ ∀ fuel, N ≤ fuel → 
      ((dictMerge acc n fuel (some l) (some r)).1 = .ok () ∧ RepresentsC acc n (dictMerge acc n fuel (some l) (some r)).2 (fun k => m2 k <|> m1 k)) ∨
      (∃ es1 k v es2, es = es1 ++ (k, v) :: es2 ∧ (∃ e, (dictMerge acc n fuel (some l) (some r)).1 = .error e) ∧
        RepresentsC acc n (dictMerge acc n fuel (some l) (some r)).2 (fun k => entryOf es1 k <|> m1 k) ∧
        ∀ d', ¬ RepresentsC acc n d' (fun k' => if k' = k then some v else (entryOf es1 k' <|> m1 k'))) := by
  have h2' : Represents acc n (some r) m2 := by
    obtain ⟨t, a, b, c, e⟩ := h2
    exact ⟨t, a, c, e⟩
  obtain ⟨es, hl, hy⟩ := C24_iter acc hn h2' false false
  have hdis := listing_distinct hl
  have hlen : ∀ e ∈ es, e.1.length = n := fun e he => ((hl.2 e.1 e.2).mp he).1
  refine ⟨es.length + 1, es, hl, fun fuel hf => ?_⟩
  have hm : dictMerge acc n fuel (some l) (some r) = dictMergeGo acc fuel (RawIter.new (some r) n false false) (some l) := by
    unfold dictMerge
    exact if_neg (by omega)
  rw [hm]
  rcases mergeGo_spec acc hn es fuel _ (by omega) hlen hy h1 with ⟨a1, a2⟩ | ⟨l1, k, v, l2, b1, b2, b3, b4⟩
  · left
    refine ⟨a1, representsC_congr a2 fun k hk => ?_⟩
    rw [over_lookup m1 es m1 k hdis]
    have : m2 k = entryOf es k := by
      cases hx : entryOf es k with
      | some v => exact ((hl.2 k v).mp ((entryOf_mem hdis v).mp hx)).2
      | none =>
        cases hy : m2 k with
        | none => rfl
        | some v =>
          have := (entryOf_mem hdis v).mpr ((hl.2 k v).mpr ⟨hk, hy⟩)
          rw [hx] at this; cases this
    rw [this]
  · right
    have hd1 : l1.Pairwise (fun p q => p.1 ≠ q.1) := by
      rw [b1] at hdis
      exact (List.pairwise_append.mp hdis).1
    refine ⟨l1, k, v, l2, b1, b2, representsC_congr b3 fun k hk => (over_lookup m1 l1 m1 k hd1).symm, fun d' hd' => b4 d' (representsC_congr hd' fun k' hk' => ?_)⟩
    unfold DMap.put
    rw [over_lookup m1 l1 m1 k' hd1]

/-- With an empty side the other one is the result. -/
theorem C31_merge_empty (acc : Cell → Bool) (n fuel : Nat) (d : Option Cell) :
    dictMerge acc n fuel d none = (.ok (), d) ∧ dictMerge acc n fuel none d = (.ok (), d) := by
  cases d <;> exact ⟨rfl, rfl⟩

/-- The check of the roots compares the number of bits in the root cells, which says nothing about the keys: here a
dictionary with the keys 00 and 01 cannot take in the key 11, although both are well-formed and the union is too. -/
theorem C31_refused_wrong : ∃ d1 d2, buildDict none accAll 2 lexBits [([false, false], ⟨[], []⟩), ([false, true], ⟨[], []⟩)] = .ok d1 ∧
    buildDict none accAll 2 lexBits [([true, true], ⟨[], []⟩)] = .ok d2 ∧ ∀ fuel, dictMerge accAll 2 fuel d1 d2 = (.error .invalidCell, d1) :=
  ⟨_, _, rfl, rfl, fun _ => rfl⟩

/-- A context that allows cells up to depth two. -/
def accDepth2 : Cell → Bool
  | .mk _ _ rs => rs.all fun | .mk _ _ rs => rs.all fun | .mk _ _ rs => rs.isEmpty

/-- A merge that fails half-way leaves the entries written so far (C34): both dictionaries are within the depth limit,
and so is the first key of the right one, which has been written; the second does not fit. -/
theorem C31_not_atomic : ∃ (d1 d2 d3 : Option Cell),
    buildDict none accDepth2 3 lexBits [([false, false, false], ⟨[], []⟩), ([true, false, false], ⟨[], []⟩)] = .ok d1 ∧
    buildDict none accDepth2 3 lexBits [([false, false, true], ⟨[], []⟩), ([false, true, true], ⟨[], []⟩), ([true, true, true], ⟨[], []⟩)] = .ok d2 ∧
    buildDict none accDepth2 3 lexBits [([false, false, false], ⟨[], []⟩), ([false, false, true], ⟨[], []⟩), ([true, false, false], ⟨[], []⟩)] = .ok d3 ∧
    dictMerge accDepth2 3 10 d1 d2 = (.error .depthOverflow, d3) :=
  ⟨_, _, _, rfl, rfl, rfl, rfl⟩

/-- An iterator error ends the merge without being reported: the right root is no dictionary at all (its label claims
three bits where there are none), but the merge succeeds with the left dictionary as it was. -/
theorem C31_bad_right_accepted : ∃ (d1 : Option Cell), buildDict none accAll 3 lexBits [([false, false, false], ⟨[], []⟩)] = .ok d1 ∧
    (∃ c, d1 = some c ∧ c.bits.length = 5) ∧
    ∀ fuel, dictMerge accAll 3 (fuel + 1) d1 (some (.mk false [true, false, true, true, false] [])) = (.ok (), d1) :=
  ⟨_, rfl, ⟨_, rfl, rfl⟩, fun _ => rfl⟩

/-- The hypotheses of `C31_merge_partial` can be met, and the merge gives what it says. -/
example : ∃ (d1 d2 d3 : Option Cell),
    buildDict none accAll 2 lexBits [([false, false], ⟨[true], []⟩), ([true, false], ⟨[true], []⟩)] = .ok d1 ∧
    buildDict none accAll 2 lexBits [([false, true], ⟨[], []⟩), ([true, false], ⟨[false], []⟩)] = .ok d2 ∧
    buildDict none accAll 2 lexBits [([false, false], ⟨[true], []⟩), ([false, true], ⟨[], []⟩), ([true, false], ⟨[false], []⟩)] = .ok d3 ∧
    dictMerge accAll 2 10 d1 d2 = (.ok (), d3) :=
  ⟨_, _, _, rfl, rfl, rfl, rfl⟩

end Verif
