import Verif.DictValuesLemmas
import Verif.DictProps
/-
C24 (iteration), C32 (value iterators) and C35 (union iteration). The key order is the one of `DictOrder.lean`.
-/
set_option linter.unusedVariables false
set_option linter.unusedSimpArgs false
namespace Verif

/-- The results of calling an iterator `k` times, also beyond its end. -/
def calls {σ α : Type} (next : σ → Option α × σ) : Nat → σ → List (Option α)
  | 0, _ => []
  | k + 1, it => (next it).1 :: calls next k (next it).2

/-- The iterator yields exactly this list and then nothing, for ever. -/
def Yields {σ α : Type} (next : σ → Option α × σ) (it : σ) (l : List α) : Prop :=
  ∀ k, calls next k it = (l.map some ++ List.replicate k none).take k

/-- An invariant that takes one element at a time gives the whole run. -/
theorem yields_of_step {σ α : Type} {next : σ → Option α × σ} (I : σ → List α → Prop)
    (h0 : ∀ it, I it [] → (next it).1 = none ∧ I (next it).2 [])
    (h1 : ∀ it p ps, I it (p :: ps) → (next it).1 = some p ∧ I (next it).2 ps) : ∀ {it l}, I it l → Yields next it l := by
  intro it l hi k
  induction k generalizing it l with
  | zero => simp [calls]
  | succ k ih =>
    rw [calls]
    cases l with
    | nil =>
      obtain ⟨a, b⟩ := h0 it hi
      have e := ih b
      rw [a, e]
      simp [List.replicate_succ]
    | cons p ps =>
      obtain ⟨a, b⟩ := h1 it p ps hi
      rw [a, ih b]
      simp only [List.map_cons, List.cons_append, List.take_succ_cons]
      congr 1
      rw [List.take_append, List.take_append]
      congr 1
      rw [List.take_replicate, List.take_replicate]
      congr 1
      omega

theorem yields_map {σ α β : Type} {next : σ → Option α × σ} {it : σ} {l : List α} (f : α → β) (h : Yields next it l) :
    Yields (fun i => ((next i).1.map f, (next i).2)) it (l.map f) := by
  intro k
  have e : ∀ k it, calls (fun i => ((next i).1.map f, (next i).2)) k it = (calls next k it).map (Option.map f) := by
    intro k
    induction k with
    | zero => intro it; rfl
    | succ k ih => intro it; rw [calls, calls, ih]; rfl
  rw [e, h k]
  simp [List.map_take, Function.comp_def]

/-! ## C24 -/

/-- The state of an iterator over a dictionary, with the entries still to come. -/
inductive ItOk (rev s : Bool) : RawIter → List (Bits × Sl) → Prop
  | fresh {t : Trie} {n : Nat} (hs : t.Sized n) (hn : n ≤ 1023) :
      ItOk rev s ⟨[⟨t.cell, ⟨t.cell.bits, t.cell.refs⟩, n, none⟩], .valid, [], rev, s⟩ (t.entries rev s)
  | later {st : List IterSeg} {b : Bits} {out : List (Bits × Sl)} (h : Pending rev s st b out) : ItOk rev s ⟨st, .valid, b, rev, s⟩ out

theorem itOk_status {rev s : Bool} {it : RawIter} {out : List (Bits × Sl)} (h : ItOk rev s it out) : it.status = .valid ∧ it.reversed = rev ∧ it.signed = s := by
  cases h <;> exact ⟨rfl, rfl, rfl⟩

theorem itOk_go {rev s : Bool} {it : RawIter} {out : List (Bits × Sl)} (h : ItOk rev s it out) :
    match (generalizing := false) out with
    | [] => ∃ b, iterGo rev s (iterFuel it.segments) it.segments it.builder 0 = .ok (none, [], b)
    | p :: ps => ∃ st' b, iterGo rev s (iterFuel it.segments) it.segments it.builder 0 = .ok (some p, st', b) ∧ Pending rev s st' b ps ∧
        (it.segments.length = 1 ∧ st' = [] → ∀ g ∈ it.segments, g.pfx = none → EndOf g.cell p.2) ∧
        (st' ≠ [] ∨ (∀ g ∈ it.segments, g.pfx ≠ none) → ∀ root, ∃ c, parentOf rev s root st' = .ok c ∧ EndOf c p.2) := by
  cases h with
  | @later st b out h =>
    have := iterGo_spec rev s (iterFuel st) h (toRewind := 0) (builder := b) (by rw [Nat.sub_zero, List.take_length]) (by omega) (Nat.le_of_lt (need_lt_fuel st))
    cases out with
    | nil => exact this
    | cons p ps =>
      obtain ⟨st', b', h1, h2, h3⟩ := this
      refine ⟨st', b', h1, h2, fun _ g hg hp => ?_, fun _ => h3⟩
      exfalso
      clear h1 h2 h3
      change g ∈ st at hg
      have : ∀ {st : List IterSeg} {b : Bits} {out : List (Bits × Sl)}, Pending rev s st b out → ∀ g ∈ st, g.pfx ≠ none := by
        intro st b out h
        induction h with
        | nil path => intro g hg; cases hg
        | root ha hb hoff hm =>
          intro g hg
          rw [List.mem_singleton] at hg
          rw [hg]; simp [forkSeg]
        | cons ha hb hoff hr hm ih =>
          intro g hg
          rcases List.mem_cons.mp hg with hg | hg
          · rw [hg]; simp [forkSeg]
          · exact ih g hg
      exact this h g hg hp
  | @fresh t n hs hn =>
    have hfuel : iterFuel [⟨t.cell, ⟨t.cell.bits, t.cell.refs⟩, n, none⟩] = n + 3 + 1 := by
      simp [iterFuel]; omega
    have hstep : iterGo rev s (n + 3 + 1) [⟨t.cell, ⟨t.cell.bits, t.cell.refs⟩, n, none⟩] [] 0 =
        (iterRead ⟨t.cell, ⟨t.cell.bits, t.cell.refs⟩, n, none⟩ [] >>= fun r => iterAfter (fun st b => iterGo rev s (n + 3) st b 0) [] [] r) := by
      rw [iterGo]
    have hmain : match t.entries rev s with
        | [] => ∃ b, iterGo rev s (n + 3 + 1) [⟨t.cell, ⟨t.cell.bits, t.cell.refs⟩, n, none⟩] [] 0 = .ok (none, [], b)
        | p :: ps => ∃ st' b, iterGo rev s (n + 3 + 1) [⟨t.cell, ⟨t.cell.bits, t.cell.refs⟩, n, none⟩] [] 0 = .ok (some p, st', b) ∧ Pending rev s st' b ps ∧
            (st' = [] → EndOf t.cell p.2) ∧ (st' ≠ [] → ∀ root, ∃ c, parentOf rev s root st' = .ok c ∧ EndOf c p.2) := by
      rw [hstep]
      cases t with
      | leaf l e v =>
        rw [iterRead_leaf hs [] (by simpa using hn)]
        exact ⟨[], [], rfl, Pending.nil [], fun _ => body_end (t := .leaf l e v), fun h => absurd rfl h⟩
      | fork l e x a b =>
        have hlt : l.length < n := hs.1
        rw [iterRead_fork hs [] (by simpa using hn)]
        have hp : Pending rev s [forkSeg l e x a b (n - l.length - 1) 0] l (forkRest rev s l a b l 0) :=
          Pending.root hs.2.2.1 hs.2.2.2 (by omega) (by omega)
        have he := entries_fork rev s l e x a b []
        have hid : ((Trie.fork l e x a b).entries rev s).map (atPath []) = (Trie.fork l e x a b).entries rev s := by
          have : atPath [] = id := by funext p; simp [atPath]
          rw [this, List.map_id]
        rw [hid, List.nil_append] at he
        have h := iterGo_spec rev s (n + 3) hp (builder := l) (toRewind := 0) (by rw [Nat.sub_zero, List.take_length]) (by omega)
          (by unfold need; rw [forkSeg_off _ _ _ _ _ _ _ (by omega), if_pos (by omega)]; show n - l.length - 1 + 2 ≤ n + 3; omega)
        rw [← he] at h
        obtain ⟨ps, hps⟩ := Trie.entries_ne_nil rev s (Trie.fork l e x a b)
        rw [hps] at h ⊢
        obtain ⟨st', b', h1, h2, h3⟩ := h
        refine ⟨st', b', h1, h2, fun hst => ?_, fun _ => h3⟩
        -- the stack is not empty after the first entry of a fork
        exfalso
        rw [hst] at h2
        have hlen : ps ≠ [] := by
          have hl : ((Trie.fork l e x a b).entries rev s).length = (a.entries rev false).length + (b.entries rev false).length := by
            rw [Trie.entries]; split <;> simp <;> omega
          obtain ⟨pa, ha⟩ := Trie.entries_ne_nil rev false a
          obtain ⟨pb, hb⟩ := Trie.entries_ne_nil rev false b
          rw [hps, ha, hb] at hl
          intro h
          rw [h] at hl
          simp at hl
          omega
        cases h2
        exact hlen rfl
    rw [show (⟨[⟨t.cell, ⟨t.cell.bits, t.cell.refs⟩, n, none⟩], .valid, [], rev, s⟩ : RawIter).segments = [⟨t.cell, ⟨t.cell.bits, t.cell.refs⟩, n, none⟩] from rfl, hfuel]
    cases hent : t.entries rev s with
    | nil => rw [hent] at hmain; exact hmain
    | cons p ps =>
      rw [hent] at hmain
      obtain ⟨st', b, h1, h2, h3, h4⟩ := hmain
      refine ⟨st', b, h1, h2, fun h g hg _ => ?_, fun h root => ?_⟩
      · rw [List.mem_singleton] at hg
        rw [hg]; exact h3 h.2
      · rcases h with h | h
        · exact h4 h root
        · exact absurd rfl (h _ (List.mem_singleton.mpr rfl))

theorem itOk_next {rev s : Bool} {it : RawIter} : 
    (ItOk rev s it [] → it.next.1 = none ∧ ItOk rev s it.next.2 []) ∧
    (∀ p ps, ItOk rev s it (p :: ps) → it.next.1 = some (.ok p) ∧ ItOk rev s it.next.2 ps) := by
  constructor
  · intro h
    obtain ⟨h1, h2, h3⟩ := itOk_status h
    obtain ⟨b, hb⟩ := itOk_go h
    unfold RawIter.next
    rw [h1]
    dsimp only
    rw [h2, h3, hb]
    refine ⟨rfl, ?_⟩
    have := ItOk.later (rev := rev) (s := s) (Pending.nil b)
    obtain ⟨a1, a2, a3, a4, a5⟩ := it
    simp only at h1 h2 h3
    subst h1 h2 h3
    exact this
  · intro p ps h
    obtain ⟨h1, h2, h3⟩ := itOk_status h
    obtain ⟨st', b, hb, hp, _⟩ := itOk_go h
    unfold RawIter.next
    rw [h1]
    dsimp only
    rw [h2, h3, hb]
    refine ⟨rfl, ?_⟩
    have := ItOk.later (rev := rev) (s := s) hp
    obtain ⟨a1, a2, a3, a4, a5⟩ := it
    simp only at h1 h2 h3
    subst h1 h2 h3
    exact this

theorem itOk_yields {rev s : Bool} {it : RawIter} {out : List (Bits × Sl)} (h : ItOk rev s it out) : Yields RawIter.next it (out.map .ok) := by
  refine yields_of_step (fun it l => ∃ out, l = out.map .ok ∧ ItOk rev s it out) ?_ ?_ ⟨out, rfl, h⟩
  · rintro it ⟨out, ho, hi⟩
    have : out = [] := List.map_eq_nil_iff.mp ho.symm
    subst this
    obtain ⟨a, b⟩ := itOk_next.1 hi
    exact ⟨a, [], rfl, b⟩
  · rintro it p ps ⟨out, ho, hi⟩
    cases out with
    | nil => cases ho
    | cons q qs =>
      simp only [List.map_cons, List.cons.injEq] at ho
      obtain ⟨a, b⟩ := itOk_next.2 q qs hi
      exact ⟨by rw [a, ho.1], qs, ho.2, b⟩

theorem itOk_new {n : Nat} (hn : n ≤ 1023) {t : Trie} (hs : t.Sized n) (rev s : Bool) : ItOk rev s (RawIter.new (some t.cell) n rev s) (t.entries rev s) := by
  unfold RawIter.new
  dsimp only
  rw [asSlice_cell]
  exact ItOk.fresh hs hn

/-- The list of entries of a map in iteration order. -/
def Listing (rev s : Bool) (n : Nat) (m : DMap) (l : List (Bits × Sl)) : Prop :=
  l.Pairwise (fun p q => keyBefore rev s p.1 q.1) ∧ ∀ k v, (k, v) ∈ l ↔ k.length = n ∧ m k = some v

theorem listing_trie {n : Nat} {t : Trie} {m : DMap} (hs : t.Sized n) (hm : ∀ k, k.length = n → m k = t.lookup k) (rev s : Bool) :
    Listing rev s n m (t.entries rev s) := by
  refine ⟨Trie.entries_sorted rev s hs, fun k v => ?_⟩
  rw [Trie.mem_entries rev s hs]
  constructor
  · intro h
    have hl := Trie.lookup_some_length hs h
    exact ⟨hl, by rw [hm k hl]; exact h⟩
  · rintro ⟨h1, h2⟩
    rw [← hm k h1]; exact h2

/-- Iteration yields every entry exactly once, in strictly increasing (or, reversed, decreasing) order of the keys as
unsigned or signed numbers, and then ends for good. -/
theorem C24_iter (acc : Cell → Bool) {n : Nat} (hn : n ≤ 1023) {d : Option Cell} {m : DMap} (hd : Represents acc n d m) (rev s : Bool) :
    ∃ l, Listing rev s n m l ∧ Yields RawIter.next (RawIter.new d n rev s) (l.map .ok) := by
  cases d with
  | none =>
    refine ⟨[], ⟨List.Pairwise.nil, fun k v => ⟨fun h => (by cases h), fun ⟨h1, h2⟩ => ?_⟩⟩, ?_⟩
    · rw [hd k h1] at h2; cases h2
    · exact itOk_yields (ItOk.later (Pending.nil []))
  | some c =>
    obtain ⟨t, hs, hf, rfl, hm⟩ := hd
    exact ⟨t.entries rev s, listing_trie hs hm rev s, itOk_yields (itOk_new hn hs rev s)⟩

/-- There is only one such list; so reversed iteration gives the exact reverse. -/
theorem C24_listing_unique {rev s : Bool} {n : Nat} {m : DMap} {l l' : List (Bits × Sl)} (h : Listing rev s n m l) (h' : Listing rev s n m l') : l = l' := by
  have : ∀ {l l' : List (Bits × Sl)}, l.Pairwise (fun p q => keyBefore rev s p.1 q.1) → l'.Pairwise (fun p q => keyBefore rev s p.1 q.1) →
      (∀ p, p ∈ l ↔ p ∈ l') → l = l' := by
    intro l
    induction l with
    | nil =>
      intro l' _ _ hm
      cases l' with
      | nil => rfl
      | cons q qs => exact absurd ((hm q).mpr List.mem_cons_self) (by simp)
    | cons p ps ih =>
      intro l' h1 h2 hm
      cases l' with
      | nil => exact absurd ((hm p).mp List.mem_cons_self) (by simp)
      | cons q qs =>
        rw [List.pairwise_cons] at h1 h2
        have hpq : p = q := by
          rcases List.mem_cons.mp ((hm p).mp List.mem_cons_self) with h | h
          · exact h
          · rcases List.mem_cons.mp ((hm q).mpr List.mem_cons_self) with h' | h'
            · exact h'.symm
            · exact absurd (keyBefore_trans (h2.1 p h) (h1.1 q h')) (keyBefore_irrefl _ _ _)
        subst hpq
        rw [ih h1.2 h2.2]
        intro r
        constructor
        · intro hr
          rcases List.mem_cons.mp ((hm r).mp (List.mem_cons_of_mem _ hr)) with h | h
          · have := h1.1 r hr
            rw [h] at this
            exact absurd this (keyBefore_irrefl _ _ _)
          · exact h
        · intro hr
          rcases List.mem_cons.mp ((hm r).mpr (List.mem_cons_of_mem _ hr)) with h | h
          · have := h2.1 r hr
            rw [h] at this
            exact absurd this (keyBefore_irrefl _ _ _)
          · exact h
  exact this h.1 h'.1 (fun p => by rw [h.2 p.1 p.2, h'.2 p.1 p.2])

theorem C24_reversed {s : Bool} {n : Nat} {m : DMap} {l : List (Bits × Sl)} (h : Listing false s n m l) : Listing true s n m l.reverse := by
  refine ⟨?_, fun k v => by rw [List.mem_reverse]; exact h.2 k v⟩
  rw [List.pairwise_reverse]
  exact h.1

/-- The key iterator yields the keys of the same list. -/
theorem C24_keys (acc : Cell → Bool) {n : Nat} (hn : n ≤ 1023) {d : Option Cell} {m : DMap} (hd : Represents acc n d m) (rev s : Bool) :
    ∃ l, Listing rev s n m l ∧
      Yields (fun it => ((RawIter.next it).1.map (fun r => r.map (·.1)), (RawIter.next it).2)) (RawIter.new d n rev s) (l.map (fun p => (.ok p.1 : Except Err Bits))) := by
  obtain ⟨l, h1, h2⟩ := C24_iter acc hn hd rev s
  refine ⟨l, h1, ?_⟩
  have := yields_map (fun r : Except Err (Bits × Sl) => r.map (·.1)) h2
  rw [List.map_map] at this
  exact this

/-- The owned iterator yields the same entries, each with the cell that the value is the end of. -/
theorem C24_owned (acc : Cell → Bool) {n : Nat} (hn : n ≤ 1023) {c : Cell} {m : DMap} (hd : Represents acc n (some c) m) (rev s : Bool) :
    ∃ l : List (Bits × Sl × Cell), Listing rev s n m (l.map (fun p => (p.1, p.2.1))) ∧ (∀ p ∈ l, EndOf p.2.2 p.2.1) ∧
      Yields (RawIter.nextOwned · c) (RawIter.new (some c) n rev s) (l.map .ok) := by
  obtain ⟨t, hs, hf, rfl, hm⟩ := hd
  -- the invariant: the root belongs to the iterator, and a fresh iterator is over the root
  have key : ∀ (out : List (Bits × Sl)) (it : RawIter), ItOk rev s it out → (∀ g ∈ it.segments, g.pfx = none → g.cell = t.cell ∧ it.segments.length = 1) →
      ∃ l : List (Bits × Sl × Cell), l.map (fun p => (p.1, p.2.1)) = out ∧ (∀ p ∈ l, EndOf p.2.2 p.2.1) ∧
        Yields (RawIter.nextOwned · t.cell) it (l.map .ok) := by
    intro out
    induction out with
    | nil =>
      intro it hi _
      refine ⟨[], rfl, fun p hp => (by cases hp), ?_⟩
      refine yields_of_step (fun it l => l = [] ∧ ItOk rev s it []) ?_ (fun it p ps ⟨h, _⟩ => by cases h) ⟨rfl, hi⟩
      rintro it ⟨_, hi⟩
      obtain ⟨a, b⟩ := itOk_next.1 hi
      unfold RawIter.nextOwned
      cases hx : it.next with
      | mk o it' =>
        rw [hx] at a b
        simp only at a
        subst a
        exact ⟨rfl, rfl, b⟩
    | cons p ps ih =>
      intro it hi hroot
      obtain ⟨h1, h2, h3⟩ := itOk_status hi
      obtain ⟨st', b, hb, hp, hpar1, hpar2⟩ := itOk_go hi
      have hnext : it.next = (some (.ok p), { it with segments := st', builder := b }) := by
        unfold RawIter.next
        rw [h1]
        dsimp only
        rw [h2, h3, hb]
      have hparent : ∃ c, ({ it with segments := st', builder := b } : RawIter).parent t.cell = .ok c ∧ EndOf c p.2 := by
        have e : ({ it with segments := st', builder := b } : RawIter).parent t.cell = parentOf rev s t.cell st' := by
          unfold RawIter.parent parentOf
          rw [h2, h3]
          cases st' <;> rfl
        rw [e]
        by_cases hpfx : ∀ g ∈ it.segments, g.pfx ≠ none
        · exact hpar2 (Or.inr hpfx) t.cell
        · by_cases hst : st' = []
          · have : ∃ g ∈ it.segments, g.pfx = none := by
              apply Classical.byContradiction
              intro hn
              exact hpfx fun g hg hgn => hn ⟨g, hg, hgn⟩
            obtain ⟨g, hg, hgn⟩ := this
            obtain ⟨hc, hl⟩ := hroot g hg hgn
            have := hpar1 ⟨hl, hst⟩ g hg hgn
            rw [hst]
            exact ⟨t.cell, rfl, hc ▸ this⟩
          · exact hpar2 (Or.inl hst) t.cell
      obtain ⟨c, hc1, hc2⟩ := hparent
      have hi' : ItOk rev s { it with segments := st', builder := b } ps := by
        have := ItOk.later (rev := rev) (s := s) hp
        obtain ⟨a1, a2, a3, a4, a5⟩ := it
        simp only at h1 h2 h3
        subst h1 h2 h3
        exact this
      have hroot' : ∀ g ∈ st', g.pfx = none → g.cell = t.cell ∧ st'.length = 1 := by
        intro g hg hgn
        exfalso
        have : ∀ {st : List IterSeg} {b : Bits} {out : List (Bits × Sl)}, Pending rev s st b out → ∀ g ∈ st, g.pfx ≠ none := by
          intro st b out h
          induction h with
          | nil path => intro g hg; cases hg
          | root ha hb hoff hm =>
            intro g hg
            rw [List.mem_singleton] at hg
            rw [hg]; simp [forkSeg]
          | cons ha hb hoff hr hm ih =>
            intro g hg
            rcases List.mem_cons.mp hg with hg | hg
            · rw [hg]; simp [forkSeg]
            · exact ih g hg
        exact this hp g hg hgn
      obtain ⟨l, i1, i2, i3⟩ := ih _ hi' hroot'
      refine ⟨(p.1, p.2, c) :: l, by rw [List.map_cons, i1], ?_, ?_⟩
      · intro q hq
        rcases List.mem_cons.mp hq with h | h
        · rw [h]; exact hc2
        · exact i2 q h
      · intro k
        cases k with
        | zero => simp [calls]
        | succ k =>
          rw [calls]
          have e : RawIter.nextOwned it t.cell = (some (.ok (p.1, p.2, c)), { it with segments := st', builder := b }) := by
            unfold RawIter.nextOwned
            rw [hnext]
            obtain ⟨p1, p2⟩ := p
            dsimp only
            rw [hc1]
          rw [e]
          dsimp only
          rw [i3 k]
          simp only [List.map_cons, List.cons_append, List.take_succ_cons]
          congr 1
          rw [List.take_append, List.take_append]
          congr 1
          rw [List.take_replicate, List.take_replicate]
          congr 1
          omega
  have hi := itOk_new hn hs rev s
  obtain ⟨l, h1, h2, h3⟩ := key _ _ hi (by
    intro g hg _
    have : (RawIter.new (some t.cell) n rev s).segments = [⟨t.cell, ⟨t.cell.bits, t.cell.refs⟩, n, none⟩] := by
      unfold RawIter.new
      dsimp only
      rw [asSlice_cell]
    rw [this] at hg ⊢
    rw [List.mem_singleton] at hg
    rw [hg]
    exact ⟨rfl, rfl⟩)
  exact ⟨l, h1 ▸ listing_trie hs hm rev s, h2, h3⟩

/-- Whatever the cells are: after an error the iterator yields nothing more. -/
theorem C24_error_ends (it it' : RawIter) (e : Err) (h : it.next = (some (.error e), it')) : Yields RawIter.next it' ([] : List (Except Err (Bits × Sl))) := by
  have hb : it'.status = .broken := by
    unfold RawIter.next at h
    cases hs : it.status with
    | unexpectedCell => rw [hs] at h; injection h with h1 h2; rw [← h2]
    | broken => rw [hs] at h; injection h with h1 h2; cases h1
    | valid =>
      rw [hs] at h
      dsimp only at h
      cases hg : iterGo it.reversed it.signed (iterFuel it.segments) it.segments it.builder 0 with
      | error e' => rw [hg] at h; injection h with h1 h2; rw [← h2]
      | ok r =>
        obtain ⟨o, st, b⟩ := r
        rw [hg] at h
        cases o with
        | none => injection h with h1 h2; cases h1
        | some p => injection h with h1 h2; cases h1
  refine yields_of_step (fun it l => l = [] ∧ it.status = .broken) ?_ (fun it p ps ⟨h, _⟩ => by cases h) ⟨rfl, hb⟩
  rintro it ⟨_, h⟩
  unfold RawIter.next
  rw [h]
  exact ⟨rfl, rfl, h⟩

/-- An exotic root is reported. -/
theorem C24_exotic (c : Cell) (n : Nat) (rev s : Bool) (h : c.exotic = true) :
    (RawIter.next (RawIter.new (some c) n rev s)).1 = some (.error .unexpectedExoticCell) := by
  have : asSlice c = .error .unexpectedExoticCell := by unfold asSlice; rw [if_pos h]
  unfold RawIter.new
  dsimp only
  rw [this]
  rfl

example :
    let v (b : Bool) : Sl := ⟨[b], []⟩
    let d := (runHistory (fun _ => true) 3 none [.insert .set [true, false, true] (v true), .insert .set [false, true, true] (v false),
      .insert .set [false, false, true] (v false), .insert .set [true, true, true] (v false)]).2
    let ks (l : List (Option (Except Err (Bits × Sl)))) := l.map (fun o => o.map (fun r => r.toOption.map (·.1)))
    ks (calls RawIter.next 6 (RawIter.new d 3 false true)) =
      [some (some [true, false, true]), some (some [true, true, true]), some (some [false, false, true]), some (some [false, true, true]), none, none] ∧
    ks (calls RawIter.next 5 (RawIter.new d 3 true false)) =
      [some (some [true, true, true]), some (some [true, false, true]), some (some [false, true, true]), some (some [false, false, true]), none] := by decide

/-! ## C32: value iterators -/

inductive VItOk (rev s : Bool) : RawValues → List Sl → Prop
  | fresh {t : Trie} {n : Nat} (hs : t.Sized n) (hn : n ≤ 1023) :
      VItOk rev s ⟨[⟨t.cell, ⟨t.cell.bits, t.cell.refs⟩, n⟩], .valid, rev, s⟩ (valList rev s t)
  | later {st : List ValSeg} {out : List Sl} (h : VPend rev s st out) : VItOk rev s ⟨st, .valid, rev, s⟩ out

theorem vItOk_status {rev s : Bool} {it : RawValues} {out : List Sl} (h : VItOk rev s it out) : it.status = .valid ∧ it.reversed = rev ∧ it.signed = s := by
  cases h <;> exact ⟨rfl, rfl, rfl⟩

theorem vItOk_go {rev s : Bool} {it : RawValues} {out : List Sl} (h : VItOk rev s it out) :
    match (generalizing := false) out with
    | [] => valGo rev s (valFuel it.segments) it.segments = .ok (none, [])
    | p :: ps => ∃ st', valGo rev s (valFuel it.segments) it.segments = .ok (some p, st') ∧ VPend rev s st' ps ∧
        (rev = false → s = false → ∀ root, (∀ g ∈ it.segments, it.segments.length = 1 → g.data.bits = g.cell.bits → g.cell = root) →
          ∃ c, vparent root st' = .ok c ∧ EndOf c p) := by
  cases h with
  | @later st out h =>
    have := valGo_spec rev s (valFuel st) h (Nat.le_of_lt (vneed_lt_fuel st))
    cases out with
    | nil => exact this
    | cons p ps =>
      obtain ⟨st', h1, h2, h3⟩ := this
      exact ⟨st', h1, h2, fun a b root _ => h3 a b root⟩
  | @fresh t n hs hn =>
    have hfuel : valFuel [⟨t.cell, ⟨t.cell.bits, t.cell.refs⟩, n⟩] = n + 3 + 1 := by
      simp [valFuel]; omega
    have hstep : valGo rev s (n + 3 + 1) [⟨t.cell, ⟨t.cell.bits, t.cell.refs⟩, n⟩] =
        (valRead ⟨t.cell, ⟨t.cell.bits, t.cell.refs⟩, n⟩ >>= fun r => valAfter (valGo rev s (n + 3)) [] r) := by
      rw [valGo, if_pos (by simp)]
    rw [show (⟨[⟨t.cell, ⟨t.cell.bits, t.cell.refs⟩, n⟩], .valid, rev, s⟩ : RawValues).segments = [⟨t.cell, ⟨t.cell.bits, t.cell.refs⟩, n⟩] from rfl, hfuel, hstep]
    cases t with
    | leaf l e v =>
      rw [valRead_leaf hs hn]
      refine ⟨[], rfl, VPend.nil, fun _ _ root hr => ⟨root, rfl, ?_⟩⟩
      have := hr _ (List.mem_singleton.mpr rfl) rfl rfl
      rw [← this]
      exact body_end (t := .leaf l e v)
    | fork l e x a b =>
      have hlt : l.length < n := hs.1
      rw [valRead_fork hs hn]
      have hp : VPend rev s [valSeg l e x a b (n - l.length - 1) 0] (valRest rev (valFirst rev s x) a b 0) :=
        VPend.root hs.2.1.ne_nil hs.2.2.1 hs.2.2.2 (by omega) (by omega)
      have h := valGo_spec rev s (n + 3) hp
        (by unfold vneed; rw [valSeg_off _ _ _ _ _ _ _ (by omega), if_pos (by omega)]; show n - l.length - 1 + 2 ≤ n + 3; omega)
      have : valList rev s (Trie.fork l e x a b) = valRest rev (valFirst rev s x) a b 0 := rfl
      rw [this]
      cases hv : valRest rev (valFirst rev s x) a b 0 with
      | nil => rw [hv] at h; exact h
      | cons p ps =>
        rw [hv] at h
        obtain ⟨st', h1, h2, h3⟩ := h
        exact ⟨st', h1, h2, fun a b root _ => h3 a b root⟩

theorem vItOk_next {rev s : Bool} {it : RawValues} :
    (VItOk rev s it [] → it.next.1 = none ∧ VItOk rev s it.next.2 []) ∧
    (∀ p ps, VItOk rev s it (p :: ps) → it.next.1 = some (.ok p) ∧ VItOk rev s it.next.2 ps) := by
  constructor
  · intro h
    obtain ⟨h1, h2, h3⟩ := vItOk_status h
    have hb := vItOk_go h
    unfold RawValues.next
    rw [h1]
    dsimp only
    rw [h2, h3, hb]
    refine ⟨rfl, ?_⟩
    have := VItOk.later (rev := rev) (s := s) VPend.nil
    obtain ⟨a1, a2, a3, a4⟩ := it
    simp only at h1 h2 h3
    subst h1 h2 h3
    exact this
  · intro p ps h
    obtain ⟨h1, h2, h3⟩ := vItOk_status h
    obtain ⟨st', hb, hp, _⟩ := vItOk_go h
    unfold RawValues.next
    rw [h1]
    dsimp only
    rw [h2, h3, hb]
    refine ⟨rfl, ?_⟩
    have := VItOk.later (rev := rev) (s := s) hp
    obtain ⟨a1, a2, a3, a4⟩ := it
    simp only at h1 h2 h3
    subst h1 h2 h3
    exact this

theorem vItOk_yields {rev s : Bool} {it : RawValues} {out : List Sl} (h : VItOk rev s it out) : Yields RawValues.next it (out.map .ok) := by
  refine yields_of_step (fun it l => ∃ out, l = out.map .ok ∧ VItOk rev s it out) ?_ ?_ ⟨out, rfl, h⟩
  · rintro it ⟨out, ho, hi⟩
    have : out = [] := List.map_eq_nil_iff.mp ho.symm
    subst this
    obtain ⟨a, b⟩ := vItOk_next.1 hi
    exact ⟨a, [], rfl, b⟩
  · rintro it p ps ⟨out, ho, hi⟩
    cases out with
    | nil => cases ho
    | cons q qs =>
      simp only [List.map_cons, List.cons.injEq] at ho
      obtain ⟨a, b⟩ := vItOk_next.2 q qs hi
      exact ⟨by rw [a, ho.1], qs, ho.2, b⟩

/-- The value iterator of an unsigned dictionary, ascending or descending, yields the values in key order. -/
theorem C32_values_unsigned_partial (acc : Cell → Bool) {n : Nat} (hn : n ≤ 1023) {d : Option Cell} {m : DMap} (hd : Represents acc n d m) (rev : Bool) :
    ∃ l, Listing rev false n m l ∧ Yields RawValues.next (RawValues.new d n rev false) (l.map (fun p => .ok p.2)) := by
  cases d with
  | none =>
    refine ⟨[], ⟨List.Pairwise.nil, fun k v => ⟨fun h => (by cases h), fun ⟨h1, h2⟩ => ?_⟩⟩, ?_⟩
    · rw [hd k h1] at h2; cases h2
    · exact vItOk_yields (VItOk.later VPend.nil)
  | some c =>
    obtain ⟨t, hs, hf, rfl, hm⟩ := hd
    refine ⟨t.entries rev false, listing_trie hs hm rev false, ?_⟩
    have h : VItOk rev false (RawValues.new (some t.cell) n rev false) (valList rev false t) := by
      unfold RawValues.new
      dsimp only
      rw [asSlice_cell]
      exact VItOk.fresh hs hn
    have hv : valList rev false t = (t.entries rev false).map (·.2) := by
      cases t with
      | leaf l e v => rfl
      | fork l e x a b =>
        have := vals_fork rev l e x a b
        unfold vals at this
        rw [this]
        show valRest rev (valFirst rev false x) a b 0 = _
        rw [show valFirst rev false x = rev from by unfold valFirst; cases rev <;> rfl]
    have := vItOk_yields h
    rw [hv, List.map_map] at this
    exact this

/-- In signed mode the order is right when the root has an empty label exactly if it has no extra data (then both
tests for the sign bit agree). -/
theorem C32_values_signed_partial (acc : Cell → Bool) {n : Nat} (hn : n ≤ 1023) {t : Trie} (hs : t.Sized n) (rev : Bool)
    (hroot : ∀ l e x a b, t = .fork l e x a b → l.isEmpty = x.bits.isEmpty) :
    Yields RawValues.next (RawValues.new (some t.cell) n rev true) ((t.entries rev true).map (fun p => .ok p.2)) := by
  have h : VItOk rev true (RawValues.new (some t.cell) n rev true) (valList rev true t) := by
    unfold RawValues.new
    dsimp only
    rw [asSlice_cell]
    exact VItOk.fresh hs hn
  have hv : valList rev true t = (t.entries rev true).map (·.2) := by
    cases t with
    | leaf l e v => rfl
    | fork l e x a b =>
      have hr := hroot l e x a b rfl
      show valRest rev (valFirst rev true x) a b 0 = _
      have hfb : valFirst rev true x = Trie.firstBit rev true l := by
        unfold valFirst Trie.firstBit; rw [hr]
      rw [hfb, Trie.entries]
      cases Trie.firstBit rev true l
      · rw [if_neg (by simp), List.map_append, List.map_map, List.map_map]; rfl
      · rw [if_pos rfl, List.map_append, List.map_map, List.map_map]; rfl
  have := vItOk_yields h
  rw [hv, List.map_map] at this
  exact this

/-- The code violates the property: signed values of a dictionary whose keys share their first bit come in the wrong
order (here the values of the keys 1 and 3, both positive). -/
theorem C32_signed_order_wrong :
    let v (b : Bool) : Sl := ⟨[b], []⟩
    let d := (runHistory (fun _ => true) 3 none [.insert .set [false, false, true] (v false), .insert .set [false, true, true] (v true)]).2
    (calls RawIter.next 3 (RawIter.new d 3 false true)).map (fun o => o.map (fun r => r.toOption.map (fun p => p.2.bits))) =
      [some (some [false]), some (some [true]), none] ∧
    (calls RawValues.next 3 (RawValues.new d 3 false true)).map (fun o => o.map (fun r => r.toOption.map (fun p => p.bits))) =
      [some (some [true]), some (some [false]), none] := by decide

/-- And reversed owned values are paired with the wrong cell: the ranges are those of the values of the keys 3 and 1,
the cells those of 1 and 3. -/
theorem C32_reversed_owned_wrong :
    let v (b : Bool) : Sl := ⟨[b], []⟩
    let d := (runHistory (fun _ => true) 2 none [.insert .set [false, true] (v false), .insert .set [true, true] (v true)]).2
    ∃ root, d = some root ∧
    (calls (RawValues.nextOwned · root) 3 (RawValues.new d 2 true false)).map (fun o => o.map (fun r => r.toOption.map (fun p => (p.1.bits, p.2.bits.getLast?)))) =
      [some (some ([true], some false)), some (some ([false], some true)), none] := by
  exact ⟨_, rfl, by decide⟩

/-- Ascending unsigned owned values come with the right cells. -/
theorem C32_owned_partial (acc : Cell → Bool) {n : Nat} (hn : n ≤ 1023) {c : Cell} {m : DMap} (hd : Represents acc n (some c) m) :
    ∃ (l : List (Bits × Sl)) (lc : List (Sl × Cell)), Listing false false n m l ∧ lc.map (·.1) = l.map (·.2) ∧ (∀ p ∈ lc, EndOf p.2 p.1) ∧
      Yields (RawValues.nextOwned · c) (RawValues.new (some c) n false false) (lc.map .ok) := by
  obtain ⟨t, hs, hf, rfl, hm⟩ := hd
  have key : ∀ (out : List Sl) (it : RawValues), VItOk false false it out → (∀ g ∈ it.segments, it.segments.length = 1 → g.data.bits = g.cell.bits → g.cell = t.cell) →
      ∃ l : List (Sl × Cell), l.map (·.1) = out ∧ (∀ p ∈ l, EndOf p.2 p.1) ∧ Yields (RawValues.nextOwned · t.cell) it (l.map .ok) := by
    intro out
    induction out with
    | nil =>
      intro it hi _
      refine ⟨[], rfl, fun p hp => (by cases hp), ?_⟩
      refine yields_of_step (fun it l => l = [] ∧ VItOk false false it []) ?_ (fun it p ps ⟨h, _⟩ => by cases h) ⟨rfl, hi⟩
      rintro it ⟨_, hi⟩
      obtain ⟨a, b⟩ := vItOk_next.1 hi
      unfold RawValues.nextOwned
      cases hx : it.next with
      | mk o it' =>
        rw [hx] at a b
        simp only at a
        subst a
        exact ⟨rfl, rfl, b⟩
    | cons p ps ih =>
      intro it hi hroot
      obtain ⟨h1, h2, h3⟩ := vItOk_status hi
      obtain ⟨st', hb, hp, hpar⟩ := vItOk_go hi
      obtain ⟨c, hc1, hc2⟩ := hpar rfl rfl t.cell hroot
      have hnext : it.next = (some (.ok p), { it with segments := st' }) := by
        unfold RawValues.next
        rw [h1]
        dsimp only
        rw [h2, h3, hb]
      have hi' : VItOk false false { it with segments := st' } ps := by
        have := VItOk.later (rev := false) (s := false) hp
        obtain ⟨a1, a2, a3, a4⟩ := it
        simp only at h1 h2 h3
        subst h1 h2 h3
        exact this
      have hroot' : ∀ g ∈ st', st'.length = 1 → g.data.bits = g.cell.bits → g.cell = t.cell := by
        intro g hg hl hbits
        exfalso
        cases hp with
        | nil => cases hg
        | root he ha hb hoff hm =>
          rw [List.mem_singleton] at hg
          subst hg
          have hbits : (_ : Bits) = _ ++ _ := hbits
          have := congrArg List.length hbits
          rw [List.length_append] at this
          exact he (List.length_eq_zero_iff.mp (by simp [valSeg] at this ⊢; omega))
        | cons he ha hb hoff hr hm => simp at hl
      obtain ⟨l, i1, i2, i3⟩ := ih _ hi' hroot'
      refine ⟨(p, c) :: l, by rw [List.map_cons, i1], ?_, ?_⟩
      · intro q hq
        rcases List.mem_cons.mp hq with h | h
        · rw [h]; exact hc2
        · exact i2 q h
      · intro k
        cases k with
        | zero => simp [calls]
        | succ k =>
          rw [calls]
          have hpe : ({ it with segments := st' } : RawValues).parent t.cell = .ok c := by
            rw [← hc1]
            unfold RawValues.parent vparent
            cases st' <;> rfl
          have e : RawValues.nextOwned it t.cell = (some (.ok (p, c)), { it with segments := st' }) := by
            unfold RawValues.nextOwned
            rw [hnext]
            dsimp only
            rw [hpe]
          rw [e]
          dsimp only
          rw [i3 k]
          simp only [List.map_cons, List.cons_append, List.take_succ_cons]
          congr 1
          rw [List.take_append, List.take_append]
          congr 1
          rw [List.take_replicate, List.take_replicate]
          congr 1
          omega
  have h : VItOk false false (RawValues.new (some t.cell) n false false) (valList false false t) := by
    unfold RawValues.new
    dsimp only
    rw [asSlice_cell]
    exact VItOk.fresh hs hn
  have hv : valList false false t = (t.entries false false).map (·.2) := by
    cases t with
    | leaf l e v => rfl
    | fork l e x a b =>
      have := vals_fork false l e x a b
      unfold vals at this
      rw [this]
      rfl
  rw [hv] at h
  obtain ⟨lc, h1, h2, h3⟩ := key _ _ h (by
    intro g hg _ _
    have : (RawValues.new (some t.cell) n false false).segments = [⟨t.cell, ⟨t.cell.bits, t.cell.refs⟩, n⟩] := by
      unfold RawValues.new
      dsimp only
      rw [asSlice_cell]
    rw [this, List.mem_singleton] at hg
    rw [hg])
  exact ⟨_, lc, listing_trie hs hm false false, h1, h2, h3⟩

end Verif
