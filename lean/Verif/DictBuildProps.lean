import Verif.DictBuildTrie
import Verif.DictProps
/-
C27: building a dictionary from a sorted list.
-/
set_option linter.unusedVariables false
set_option linter.unusedSimpArgs false
namespace Verif

/-- Without a comparator, `RepresentsX` is the canonical form of ordinary dictionaries. -/
theorem representsX_none (acc : Cell → Bool) (n : Nat) (d : Option Cell) (m : DMap) : RepresentsX none acc n d m ↔ RepresentsC acc n d m := by
  cases d with
  | none => exact Iff.rfl
  | some c =>
    show (∃ t : Trie, _) ↔ (∃ t : Trie, _)
    constructor
    · rintro ⟨t, h1, h2, h3, h4⟩
      exact ⟨t, h1, Trie.canonX_none.mp h2, Trie.good_none.mp h3, h4⟩
    · rintro ⟨t, h1, h2, h3, h4⟩
      exact ⟨t, h1, Trie.canonX_none.mpr h2, Trie.good_none.mpr h3, h4⟩

/-- The canonical dictionary of a map is unique. -/
theorem representsX_unique {cmp : Comparator} {acc acc' : Cell → Bool} {n : Nat} {d d' : Option Cell} {m m' : DMap}
    (h : RepresentsX cmp acc n d m) (h' : RepresentsX cmp acc' n d' m') (hm : ∀ k, k.length = n → m k = m' k) : d = d' := by
  cases d with
  | none =>
    cases d' with
    | none => rfl
    | some c' =>
      obtain ⟨t, hs, _, _, _, hl⟩ := h'
      obtain ⟨k, v, hk, hv⟩ := Trie.exists_key hs
      rw [← hl k hk, ← hm k hk, h k hk] at hv
      cases hv
  | some c =>
    obtain ⟨t, hs, hc, _, rfl, hl⟩ := h
    cases d' with
    | none =>
      obtain ⟨k, v, hk, hv⟩ := Trie.exists_key hs
      rw [← hl k hk, hm k hk, h' k hk] at hv
      cases hv
    | some c' =>
      obtain ⟨t', hs', hc', _, rfl, hl'⟩ := h'
      rw [Trie.canonX_unique hs hs' hc hc' (fun k hk => by rw [← hl k hk, ← hl' k hk, hm k hk])]

/-- Entries in ascending order of their keys; equal keys are allowed. -/
def Ascending (es : List (Bits × Sl)) : Prop := es.Pairwise (fun a b => lexBits a.1 b.1 ≠ .gt)

/-- Building from ascending entries yields the canonical dictionary of their map (of several entries with the same
key the first counts), with the extras of the comparator if there is one. It fails only if there is no such
dictionary, because a cell does not fit or the comparator fails. -/
theorem C27_build (cmp : Comparator) (acc : Cell → Bool) {n : Nat} (hn : n ≤ 1023) (es : List (Bits × Sl)) (hlen : ∀ e ∈ es, e.1.length = n)
    (hasc : Ascending es) :
    match buildDict cmp acc n lexBits es with
    | .ok d => RepresentsX cmp acc n d (entryOf es)
    | .error _ => ∀ d, ¬ RepresentsX cmp acc n d (entryOf es) := by
  cases es with
  | nil => exact fun k _ => rfl
  | cons e es =>
    obtain ⟨key, v⟩ := e
    rw [Ascending, List.pairwise_cons] at hasc
    have hk : key.length = n := hlen (key, v) List.mem_cons_self
    have hlen' : ∀ e ∈ es, e.1.length = n := fun e he => hlen e (List.mem_cons_of_mem _ he)
    let s : BState := ⟨key, v, []⟩
    have hs : s.Ok cmp n := ⟨hk, List.Pairwise.nil, by intro p hp; cases hp⟩
    have hst : StackFor cmp acc n s [.leaf key v 0] := ⟨hs, [], 0, rfl, .nil⟩
    have hlook : ∀ k, s.look k = if k = key then some v else none := fun k => rfl
    obtain ⟨p1, p2⟩ := pushAll_ok cmp es s hs hlen' hasc.1 hasc.2 (by rw [hlook, if_pos rfl]; rfl)
    have hmap : ∀ k, entryOf ((key, v) :: es) k = (BState.pushAll cmp n es s).look k := by
      intro k
      rw [p2, hlook, entryOf]
      by_cases h : k = key
      · rw [if_pos h, if_pos h]; rfl
      · rw [if_neg h, if_neg h]; rfl
    obtain ⟨t1, t2, t3⟩ := p1.trie
    have hrep : ((BState.pushAll cmp n es s).trie cmp n).Good cmp acc →
        RepresentsX cmp acc n (some ((BState.pushAll cmp n es s).trie cmp n).cell) (entryOf ((key, v) :: es)) :=
      fun hg => ⟨_, t1, t2, hg, rfl, fun k _ => by rw [hmap, t3]⟩
    have hnot : ¬ ((BState.pushAll cmp n es s).trie cmp n).Good cmp acc → ∀ d, ¬ RepresentsX cmp acc n d (entryOf ((key, v) :: es)) := by
      intro hg d hd
      cases d with
      | none =>
        have := hd key hk
        rw [entryOf, if_pos rfl] at this
        cases this
      | some c =>
        obtain ⟨t, a1, a2, a3, rfl, a4⟩ := hd
        have := Trie.canonX_unique a1 t1 a2 t2 (fun k hk => by rw [← a4 k hk, hmap, t3])
        rw [this] at a3
        exact hg a3
    have hgo : buildGo cmp acc n lexBits ((key, v) :: es) none [] = buildGo cmp acc n lexBits es (some key) [.leaf key v 0] := rfl
    unfold buildDict
    rw [hgo]
    rcases buildGo_spec cmp acc hn es s _ hst hlen' hasc.1 hasc.2 with ⟨st', he, hst'⟩ | ⟨⟨e, he⟩, p, hp, hbad⟩
    · change buildGo cmp acc n lexBits es (some key) _ = _ at he
      rw [he]
      obtain ⟨f1, f2⟩ := finalize_spec cmp acc hn hst'
      show match finalize cmp acc n st' with
        | .ok d => _
        | .error _ => _
      by_cases hg : ((BState.pushAll cmp n es s).trie cmp n).Good cmp acc
      · rw [f1 hg]; exact hrep hg
      · obtain ⟨e, he⟩ := f2 hg
        rw [he]; exact hnot hg
    · change buildGo cmp acc n lexBits es (some key) _ = _ at he
      rw [he]
      refine hnot fun hg => hbad ?_
      exact (closeDown_part cmp acc n _ 0 _ _ hg).1 p hp

/-- Entries out of order are refused. -/
theorem C27_unsorted (cmp : Comparator) (acc : Cell → Bool) {n : Nat} (es : List (Bits × Sl)) (hlen : ∀ e ∈ es, e.1.length = n)
    (hasc : ¬ Ascending es) : ∃ e, buildDict cmp acc n lexBits es = .error e := by
  cases es with
  | nil => exact absurd List.Pairwise.nil hasc
  | cons e es =>
    obtain ⟨key, v⟩ := e
    have hk : key.length = n := hlen (key, v) List.mem_cons_self
    obtain ⟨e, he⟩ := buildGo_unsorted cmp acc es key [.leaf key v 0] hk (fun e he => hlen e (List.mem_cons_of_mem _ he))
      (fun h => hasc (List.Pairwise.cons h.1 h.2))
    have hgo : buildGo cmp acc n lexBits ((key, v) :: es) none [] = buildGo cmp acc n lexBits es (some key) [.leaf key v 0] := rfl
    refine ⟨e, ?_⟩
    unfold buildDict
    rw [hgo, he]
    rfl

/-- Insert entries one by one, keeping what is there. -/
def insertAll (acc : Cell → Bool) (n : Nat) : List (Bits × Sl) → Option Cell → Except Err (Option Cell)
  | [], d => .ok d
  | (k, v) :: es, d => match dictInsert acc d k n v .add with
    | (.ok _, d') => insertAll acc n es d'
    | (.error e, _) => .error e

theorem insertAll_represents (acc : Cell → Bool) {n : Nat} (hn : n ≤ 1023) : ∀ (es : List (Bits × Sl)) {d d' : Option Cell} {m : DMap},
    (∀ e ∈ es, e.1.length = n) → RepresentsC acc n d m → insertAll acc n es d = .ok d' → RepresentsC acc n d' (fun k => m k <|> entryOf es k)
  | [], d, d', m, _, hd, h => by
    injection h with h
    subst h
    have : (fun k => m k <|> entryOf [] k) = m := by
      funext k; show (m k <|> none) = m k; cases m k <;> rfl
    rw [this]; exact hd
  | (key, v) :: es, d, d', m, hlen, hd, h => by
    have hk : key.length = n := hlen (key, v) List.mem_cons_self
    rcases C22_step acc hn hd (.insert .add key v) with ⟨_, h1, h2⟩ | ⟨_, ⟨e, h1⟩, _⟩
    · simp only [DOp.run] at h1 h2
      rw [insertAll] at h
      generalize dictInsert acc d key n v .add = r at h1 h2 h
      obtain ⟨r1, d1⟩ := r
      cases r1 with
      | error e => cases h1
      | ok b =>
        have := insertAll_represents acc hn es (fun e he => hlen e (List.mem_cons_of_mem _ he)) h2 h
        have hm : (fun k => ((DOp.insert SetMode.add key v).spec m).2 k <|> entryOf es k) = (fun k => m k <|> entryOf ((key, v) :: es) k) := by
          funext k
          simp only [DOp.spec, entryOf]
          cases hw : m.writes .add key with
          | true =>
            rw [if_pos rfl]
            unfold DMap.put
            by_cases hkk : k = key
            · rw [if_pos hkk, if_pos hkk]
              have : m key = none := by
                unfold DMap.writes at hw
                cases hm : m key with
                | none => rfl
                | some x => rw [hm] at hw; cases hw
              rw [hkk, this]; rfl
            · rw [if_neg hkk, if_neg hkk]
          | false =>
            rw [if_neg (by simp)]
            by_cases hkk : k = key
            · rw [if_pos hkk]
              unfold DMap.writes at hw
              cases hm : m key with
              | none => rw [hm] at hw; cases hw
              | some x => rw [hkk, hm]; rfl
            · rw [if_neg hkk]
        rw [hm] at this
        exact this
    · simp only [DOp.run] at h1
      rw [insertAll] at h
      generalize dictInsert acc d key n v .add = r at h1 h
      obtain ⟨r1, d1⟩ := r
      cases r1 with
      | error e => cases h
      | ok b => cases h1

/-- If inserting the entries one by one works, in this or any other order that yields the same map, then building
works and gives the same cell. -/
theorem C27_insertions (acc : Cell → Bool) {n : Nat} (hn : n ≤ 1023) (es es' : List (Bits × Sl)) (hlen : ∀ e ∈ es, e.1.length = n) (hasc : Ascending es)
    (hlen' : ∀ e ∈ es', e.1.length = n) (hsame : ∀ k, k.length = n → entryOf es' k = entryOf es k) {d : Option Cell} (h : insertAll acc n es' none = .ok d) :
    buildDict none acc n lexBits es = .ok d := by
  have h1 := insertAll_represents acc hn es' hlen' (C22_empty acc n) h
  have h2 := (representsX_none acc n d _).mpr h1
  have hm : (fun k => (none : Option Sl) <|> entryOf es' k) = entryOf es' := by funext k; rfl
  rw [hm] at h2
  have h3 : RepresentsX none acc n d (entryOf es) := by
    cases d with
    | none => exact fun k hk => by rw [← hsame k hk]; exact h2 k hk
    | some c =>
      obtain ⟨t, a, b, c, e, f⟩ := h2
      exact ⟨t, a, b, c, e, fun k hk => by rw [← hsame k hk]; exact f k hk⟩
  have hb := C27_build none acc hn es hlen hasc
  cases hx : buildDict none acc n lexBits es with
  | error e => rw [hx] at hb; exact absurd h3 (hb d)
  | ok d' =>
    rw [hx] at hb
    rw [representsX_unique hb h3 (fun _ _ => rfl)]

/-- Building never overwrites: what a lookup returns afterwards is the first entry with the key. -/
theorem C27_get (acc : Cell → Bool) {n : Nat} (hn : n ≤ 1023) (es : List (Bits × Sl)) (hlen : ∀ e ∈ es, e.1.length = n) (hasc : Ascending es)
    {d : Option Cell} (h : buildDict none acc n lexBits es = .ok d) {k : Bits} (hk : k.length = n) : dictGet d n k = .ok (entryOf es k) := by
  have hb := C27_build none acc hn es hlen hasc
  rw [h] at hb
  have hr := (representsX_none acc n d _).mp hb
  rcases C22_step acc hn hr (.get k) with ⟨_, e, _⟩ | ⟨h', _, _⟩
  · simp only [DOp.run, DOp.spec] at e
    cases hx : dictGet d n k with
    | error e' => rw [hx] at e; cases e
    | ok v =>
      rw [hx] at e
      change Except.ok (DOut.value v) = _ at e
      injection e with e
      injection e with e
      rw [e]
  · exact h'.elim (fun h' => absurd hk h') (fun h' => absurd ⟨d, hr⟩ h')

def accAll : Cell → Bool := fun _ => true

/-- Four entries (one of them a duplicate), with and without a comparator that keeps the extra of the left branch. -/
example :
    let es : List (Bits × Sl) := [([false, false, true], ⟨[true], []⟩), ([false, true, true], ⟨[false], []⟩), ([false, true, true], ⟨[true], []⟩), ([true, true, false], ⟨[], []⟩)]
    Ascending es ∧ ((buildDict none accAll 3 lexBits es).toOption.isSome) ∧ ((buildDict (some fun a _ => .ok a) accAll 3 lexBits es).toOption.isSome) := by
  refine ⟨?_, by decide, by decide⟩
  unfold Ascending
  simp [lexBits]

/-- The order of signed integers (two's complement) on keys: a set first bit comes first. -/
def signedLex : Bits → Bits → Ordering
  | a :: as, b :: bs => if a = b then lexBits as bs else if a then .lt else .gt
  | as, bs => lexBits as bs

/-- With keys of a signed integer type the order of the entries is that of the numbers, not that of the bits, and the
dictionary is wrong: built from `-1` and `0` (in this order, as required) it finds neither of the values. -/
theorem C27_signed_wrong : ∃ d, buildDict none accAll 2 signedLex [([true, true], ⟨[true], []⟩), ([false, false], ⟨[false], []⟩)] = .ok d ∧
    dictGet d 2 [true, true] = .ok none ∧ dictGet d 2 [false, false] = .ok none :=
  ⟨_, rfl, rfl, rfl⟩

end Verif
