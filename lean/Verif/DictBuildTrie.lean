import Verif.DictBuildLemmas
import Verif.SliceScan2
/-
What the tries of the merge stack contain.
-/
set_option linter.unusedVariables false
set_option linter.unusedSimpArgs false
namespace Verif
open CSlice

/-- The value of the full key `k` in a trie that holds the keys with the prefix `p`. -/
def lk (p : Bits) (T : Trie) (k : Bits) : Option Sl :=
  match stripPrefix p k with
  | some r => T.lookup r
  | none => none

theorem stripPrefix_append_left (p l k : Bits) : stripPrefix (p ++ l) k = (stripPrefix p k).bind (stripPrefix l) := by
  induction p generalizing k with
  | nil => rfl
  | cons a p ih =>
    cases k with
    | nil => rfl
    | cons b k =>
      rw [List.cons_append, stripPrefix, stripPrefix]
      by_cases h : a = b
      · rw [if_pos h, if_pos h, ih]
      · rw [if_neg h, if_neg h]; rfl

theorem lk_joinX (cmp : Comparator) (p l : Bits) (n : Nat) (A B : Trie) (k : Bits) :
    lk p (Trie.joinX cmp l n A B) k = (lk (p ++ l ++ [false]) A k <|> lk (p ++ l ++ [true]) B k) := by
  unfold lk
  rw [stripPrefix_append_left (p ++ l), stripPrefix_append_left (p ++ l), stripPrefix_append_left p]
  cases stripPrefix p k with
  | none => rfl
  | some r =>
    show Trie.lookup (Trie.joinX cmp l n A B) r = _
    have hj : Trie.lookup (Trie.joinX cmp l n A B) r = match stripPrefix l r with
      | some (false :: r) => A.lookup r
      | some (true :: r) => B.lookup r
      | _ => none := by
      unfold Trie.joinX
      rw [Trie.lookup]
      cases stripPrefix l r with
      | none => rfl
      | some s => cases s with
        | nil => rfl
        | cons c s => cases c <;> rfl
    rw [hj]
    simp only [Option.bind_some]
    cases stripPrefix l r with
    | none => rfl
    | some s =>
      cases s with
      | nil => rfl
      | cons c s =>
        cases c with
        | false =>
          show A.lookup s = (A.lookup s <|> none)
          cases A.lookup s <;> rfl
        | true => rfl

/-- The keys of a path with left branches. -/
def spLook (q : Bits) : List (Nat × Trie) → (Bits → Option Sl) → Bits → Option Sl
  | [], g => g
  | (e, T) :: sp, g => spLook q sp (fun k => lk (q.take e ++ [false]) T k <|> g k)

theorem spLook_or (q : Bits) (k : Bits) : ∀ (sp : List (Nat × Trie)) (a b : Bits → Option Sl),
    spLook q sp (fun k => a k <|> b k) k = (spLook q sp a k <|> b k)
  | [], a, b => rfl
  | (e, T) :: sp, a, b => by
    have : (fun k => lk (q.take e ++ [false]) T k <|> (a k <|> b k)) = (fun k => (lk (q.take e ++ [false]) T k <|> a k) <|> b k) := by
      funext k; cases lk (q.take e ++ [false]) T k <;> rfl
    show spLook q sp (fun k => lk (q.take e ++ [false]) T k <|> (a k <|> b k)) k = _
    rw [this, spLook_or q k sp]
    rfl

theorem spLook_append (q : Bits) : ∀ (sp sp' : List (Nat × Trie)) (g : Bits → Option Sl), spLook q (sp ++ sp') g = spLook q sp' (spLook q sp g)
  | [], sp', g => rfl
  | (e, T) :: sp, sp', g => spLook_append q sp sp' _

theorem spLook_path {q q' : Bits} {d : Nat} (h : q.take d = q'.take d) : ∀ (sp : List (Nat × Trie)) (g : Bits → Option Sl), (∀ p ∈ sp, p.1 ≤ d) →
    spLook q sp g = spLook q' sp g
  | [], g, _ => rfl
  | (e, T) :: sp, g, hsp => by
    have he : q.take e = q'.take e := by
      have : e ≤ d := hsp (e, T) List.mem_cons_self
      rw [← Nat.min_eq_left this, ← List.take_take, ← List.take_take, h]
    unfold spLook
    rw [he]
    exact spLook_path h sp _ (fun p hp => hsp p (List.mem_cons_of_mem _ hp))

/-- A path `q` with left branches `sp` above the node `R`, which holds the keys `g`. -/
structure PathOk (cmp : Comparator) (n : Nat) (q : Bits) (sp : List (Nat × Trie)) (R : Nat → Trie) (g : Bits → Option Sl) : Prop where
  len : q.length ≤ n
  dec : sp.Pairwise (fun p p' => p'.1 < p.1)
  lt : ∀ p ∈ sp, p.1 < q.length
  one : ∀ p ∈ sp, q[p.1]? = some true
  sized : ∀ p ∈ sp, p.2.Sized (n - p.1 - 1)
  canon : ∀ p ∈ sp, p.2.CanonX cmp (n - p.1 - 1)
  rsized : ∀ o, o ≤ q.length → (R o).Sized (n - o)
  rcanon : ∀ o, o ≤ q.length → (R o).CanonX cmp (n - o)
  rlook : ∀ o, o ≤ q.length → ∀ k, lk (q.take o) (R o) k = g k

theorem take_succ_of {q : Bits} {e : Nat} {b : Bool} (h : q[e]? = some b) : q.take (e + 1) = q.take e ++ [b] := by
  rw [List.take_add_one, h]; rfl

theorem closeDown_spec (cmp : Comparator) (n : Nat) (q : Bits) (o : Nat) (ho : o ≤ q.length) (hq : q.length ≤ n) : ∀ (sp : List (Nat × Trie)) (R : Nat → Trie)
    (g : Bits → Option Sl) (m : Nat), sp.Pairwise (fun p p' => p'.1 < p.1) → (∀ p ∈ sp, o ≤ p.1 ∧ p.1 < m ∧ q[p.1]? = some true ∧ p.2.Sized (n - p.1 - 1) ∧ p.2.CanonX cmp (n - p.1 - 1)) →
    o ≤ m → m ≤ q.length →
    (∀ o, o ≤ m → (R o).Sized (n - o) ∧ (R o).CanonX cmp (n - o) ∧ ∀ k, lk (q.take o) (R o) k = g k) →
    (closeDown cmp n q o sp R).Sized (n - o) ∧ (closeDown cmp n q o sp R).CanonX cmp (n - o) ∧
      ∀ k, lk (q.take o) (closeDown cmp n q o sp R) k = spLook q sp g k
  | [], R, g, m, _, _, hom, hm, hR => hR o hom
  | (e, T) :: sp, R, g, m, hdec, hsp, hom, hm, hR => by
    rw [List.pairwise_cons] at hdec
    obtain ⟨h1, h2, h3, h4, h5⟩ := hsp (e, T) List.mem_cons_self
    simp only at h1 h2 h3 h4 h5
    refine closeDown_spec cmp n q o ho hq sp _ _ e hdec.2 ?_ h1 (by omega) ?_
    · intro p hp
      obtain ⟨a1, a2, a3⟩ := hsp p (List.mem_cons_of_mem _ hp)
      exact ⟨a1, hdec.1 p hp, a3⟩
    · intro o' ho'
      obtain ⟨r1, r2, r3⟩ := hR (e + 1) (by omega)
      have hl : ((q.drop o').take (e - o')).length = e - o' := by
        rw [List.length_take, List.length_drop]; omega
      have hnn : n - o' - (e - o') - 1 = n - e - 1 := by omega
      refine ⟨⟨?_, ?_, ?_, ?_⟩, ⟨rfl, rfl, ?_, ?_⟩, ?_⟩
      · rw [hl]; omega
      · exact labelBits_enc _ _ (by rw [hl]; omega)
      · rw [hl, hnn]; exact h4
      · rw [hl, hnn]
        have : n - e - 1 = n - (e + 1) := by omega
        rw [this]; exact r1
      · rw [hl, hnn]; exact h5
      · rw [hl, hnn]
        have : n - e - 1 = n - (e + 1) := by omega
        rw [this]; exact r2
      · intro k
        rw [lk_joinX]
        have htk : q.take o' ++ (q.drop o').take (e - o') = q.take e := by
          rw [← List.take_append_drop o' (q.take e), List.take_take, List.drop_take, Nat.min_eq_left ho']
        rw [htk, ← take_succ_of h3, r3]

/-- The node for one entry. -/
def leafAt (n : Nat) (q : Bits) (v : Sl) (o : Nat) : Trie := (Trie.leaf [] [] v).relabel (q.drop o) (n - o)

theorem leafAt_ok (cmp : Comparator) (n : Nat) (q : Bits) (v : Sl) (hq : q.length = n) (o : Nat) (ho : o ≤ q.length) :
    (leafAt n q v o).Sized (n - o) ∧ (leafAt n q v o).CanonX cmp (n - o) ∧ ∀ k, lk (q.take o) (leafAt n q v o) k = if k = q then some v else none := by
  refine ⟨⟨?_, labelBits_enc _ _ ?_⟩, rfl, fun k => ?_⟩
  · rw [List.length_drop]; omega
  · rw [List.length_drop]; omega
  · unfold lk
    cases h : stripPrefix (q.take o) k with
    | none =>
      show none = _
      rw [if_neg]
      rintro rfl
      have := stripPrefix_append (k.take o) (k.drop o)
      rw [List.take_append_drop, h] at this
      cases this
    | some r =>
      rw [stripPrefix_some] at h
      show (if r = q.drop o then some v else none) = _
      have : r = q.drop o ↔ k = q := by
        constructor
        · intro hr
          rw [h, hr, List.take_append_drop]
        · intro hk
          have e : q.take o ++ r = q.take o ++ q.drop o := by rw [List.take_append_drop, ← h, hk]
          exact List.append_cancel_left e
      by_cases hk : k = q
      · rw [if_pos hk, if_pos (this.mpr hk)]
      · rw [if_neg hk, if_neg (fun h => hk (this.mp h))]

/-- The last entry and the left branches of the path to it, built without looking at the limits of cells. -/
structure BState where
  q : Bits
  v : Sl
  sp : List (Nat × Trie)

def BState.trie (cmp : Comparator) (n : Nat) (s : BState) : Trie := closeDown cmp n s.q 0 s.sp (leafAt n s.q s.v)

def BState.look (s : BState) : Bits → Option Sl := spLook s.q s.sp (fun k => if k = s.q then some s.v else none)

def BState.push (cmp : Comparator) (n : Nat) (s : BState) (key : Bits) (v : Sl) : BState :=
  let d := commonPrefixLen s.q key
  ⟨key, v, (d, closeDown cmp n s.q (d + 1) (above d s.sp) (leafAt n s.q s.v)) :: below d s.sp⟩

structure BState.Ok (cmp : Comparator) (n : Nat) (s : BState) : Prop where
  len : s.q.length = n
  dec : s.sp.Pairwise (fun p p' => p'.1 < p.1)
  ok : ∀ p ∈ s.sp, p.1 < n ∧ s.q[p.1]? = some true ∧ p.2.Sized (n - p.1 - 1) ∧ p.2.CanonX cmp (n - p.1 - 1)

theorem BState.Ok.trie {cmp : Comparator} {n : Nat} {s : BState} (h : s.Ok cmp n) :
    (s.trie cmp n).Sized n ∧ (s.trie cmp n).CanonX cmp n ∧ ∀ k, (s.trie cmp n).lookup k = s.look k := by
  have hs := closeDown_spec cmp n s.q 0 (Nat.zero_le _) (by rw [h.len]; exact Nat.le_refl _) s.sp (leafAt n s.q s.v) (fun k => if k = s.q then some s.v else none) n h.dec
    (fun p hp => ⟨Nat.zero_le _, h.ok p hp⟩) (Nat.zero_le _) (by rw [h.len]; exact Nat.le_refl _)
    (fun o ho => leafAt_ok cmp n s.q s.v h.len o (by rw [h.len]; exact ho))
  exact hs

/-- Two keys of the same length, one before the other. -/
theorem lexBits_lt_div {a b : Bits} (hl : a.length = b.length) (h : lexBits a b = .lt) :
    commonPrefixLen a b < a.length ∧ a[commonPrefixLen a b]? = some false ∧ b[commonPrefixLen a b]? = some true ∧
      a.take (commonPrefixLen a b) = b.take (commonPrefixLen a b) := by
  induction a generalizing b with
  | nil =>
    cases b with
    | nil => cases h
    | cons y ys => cases hl
  | cons x xs ih =>
    cases b with
    | nil => cases hl
    | cons y ys =>
      rw [lexBits] at h
      rw [commonPrefixLen]
      by_cases hxy : x = y
      · subst hxy
        rw [if_pos rfl] at h
        rw [if_pos rfl]
        obtain ⟨h1, h2, h3, h4⟩ := ih (by simpa using hl) h
        refine ⟨by simp; omega, by simpa using h2, by simpa using h3, by simp [h4]⟩
      · rw [if_neg hxy] at h
        rw [if_neg hxy]
        cases y with
        | false => cases h
        | true =>
          have : x = false := by cases x <;> simp_all
          subst this
          exact ⟨by simp, rfl, rfl, rfl⟩

theorem above_below (d : Nat) : ∀ {sp : List (Nat × Trie)}, sp.Pairwise (fun p p' => p'.1 < p.1) → sp = above d sp ++ below d sp
  | [], _ => rfl
  | p :: sp, h => by
    rw [List.pairwise_cons] at h
    by_cases hd : d < p.1
    · have h1 : above d (p :: sp) = p :: above d sp := by
        unfold above; rw [List.filter_cons, if_pos (by simpa using hd)]
      have h2 : below d (p :: sp) = below d sp := by
        unfold below; rw [List.filter_cons, if_neg (by simpa using hd)]
      rw [h1, h2, List.cons_append, ← above_below d h.2]
    · have hall : ∀ x ∈ p :: sp, x.1 ≤ d := by
        intro x hx
        rcases List.mem_cons.mp hx with e | e
        · rw [e]; omega
        · have := h.1 x e; omega
      obtain ⟨f1, f2⟩ := filter_none hall
      rw [f1, f2]; rfl

theorem mem_above {d : Nat} {sp : List (Nat × Trie)} {p : Nat × Trie} : p ∈ above d sp ↔ p ∈ sp ∧ d < p.1 := by
  unfold above; rw [List.mem_filter]; simp
theorem mem_below {d : Nat} {sp : List (Nat × Trie)} {p : Nat × Trie} : p ∈ below d sp ↔ p ∈ sp ∧ p.1 ≤ d := by
  unfold below; rw [List.mem_filter]; simp

theorem BState.Ok.push {cmp : Comparator} {n : Nat} {s : BState} (h : s.Ok cmp n) {key : Bits} (v : Sl) (hk : key.length = n)
    (hlt : lexBits s.q key = .lt) : (s.push cmp n key v).Ok cmp n ∧ ∀ k, (s.push cmp n key v).look k = (s.look k <|> if k = key then some v else none) := by
  obtain ⟨hd, hq, hk1, htk⟩ := lexBits_lt_div (h.len.trans hk.symm) hlt
  have hdn : commonPrefixLen s.q key < n := by rw [← h.len]; exact hd
  unfold BState.push
  generalize commonPrefixLen s.q key = d at hd hq hk1 htk hdn
  dsimp only
  have hne : ∀ p ∈ s.sp, p.1 ≠ d := by
    intro p hp he
    have := (h.ok p hp).2.1
    rw [he, hq] at this
    cases this
  have hcl := closeDown_spec cmp n s.q (d + 1) (by omega) (by rw [h.len]; exact Nat.le_refl _) (above d s.sp) (leafAt n s.q s.v)
    (fun k => if k = s.q then some s.v else none) n (h.dec.filter _)
    (fun p hp => by obtain ⟨h1, h2⟩ := mem_above.mp hp; exact ⟨h2, h.ok p h1⟩) (by omega) (by rw [h.len]; exact Nat.le_refl _)
    (fun o ho => leafAt_ok cmp n s.q s.v h.len o (by rw [h.len]; exact ho))
  obtain ⟨c1, c2, c3⟩ := hcl
  have hb : ∀ p ∈ below d s.sp, p.1 < d := by
    intro p hp
    obtain ⟨h1, h2⟩ := mem_below.mp hp
    have := hne p h1
    omega
  refine ⟨⟨hk, ?_, ?_⟩, ?_⟩
  · exact List.Pairwise.cons hb (h.dec.filter _)
  · intro p hp
    rcases List.mem_cons.mp hp with e | e
    · subst e
      have : n - d - 1 = n - (d + 1) := by omega
      refine ⟨hdn, hk1, ?_, ?_⟩
      · show Trie.Sized (n - d - 1) _
        rw [this]; exact c1
      · show Trie.CanonX cmp (n - d - 1) _
        rw [this]; exact c2
    · obtain ⟨a1, a2, a3⟩ := h.ok p (mem_below.mp e).1
      refine ⟨a1, ?_, a3⟩
      have hpd := hb p e
      have e1 : (s.q.take d)[p.1]? = s.q[p.1]? := by rw [List.getElem?_take, if_pos hpd]
      have e2 : (key.take d)[p.1]? = key[p.1]? := by rw [List.getElem?_take, if_pos hpd]
      show key[p.1]? = some true
      rw [← e2, ← htk, e1]; exact a2
  · intro k
    show spLook key (below d s.sp) (fun k => lk (key.take d ++ [false]) (closeDown cmp n s.q (d + 1) (above d s.sp) (leafAt n s.q s.v)) k <|> if k = key then some v else none) k = _
    have e1 : key.take d ++ [false] = s.q.take (d + 1) := by rw [take_succ_of hq, htk]
    rw [e1]
    have e2 : (fun k => lk (s.q.take (d + 1)) (closeDown cmp n s.q (d + 1) (above d s.sp) (leafAt n s.q s.v)) k <|> if k = key then some v else none) =
        (fun k => spLook s.q (above d s.sp) (fun k => if k = s.q then some s.v else none) k <|> if k = key then some v else none) := by
      funext k; rw [c3]
    rw [e2, spLook_or key k (below d s.sp) (spLook s.q (above d s.sp) fun k => if k = s.q then some s.v else none), ← spLook_path htk _ _ (fun p hp => Nat.le_of_lt (hb p hp)),
      ← spLook_append, ← above_below d h.dec]
    rfl

/-- The stack of the code for a state. -/
structure StackFor (cmp : Comparator) (acc : Cell → Bool) (n : Nat) (s : BState) (st : List MItem) : Prop where
  ok : s.Ok cmp n
  stack : ∃ rest prev, st = .leaf s.q s.v prev :: rest ∧ StackIs cmp acc n prev rest s.sp

/-- One entry is added, or cannot be built. -/
theorem push_spec (cmp : Comparator) (acc : Cell → Bool) {n : Nat} (hn : n ≤ 1023) {s : BState} {st : List MItem} (h : StackFor cmp acc n s st) {key : Bits} (v : Sl)
    (hk : key.length = n) (hlt : lexBits s.q key = .lt) :
    (∃ st', reduce cmp acc n st key = .ok (commonPrefixLen s.q key, st') ∧
      StackFor cmp acc n (s.push cmp n key v) (.leaf key v (commonPrefixLen s.q key) :: st')) ∨
    (∃ e, reduce cmp acc n st key = .error e) ∧ ∃ p ∈ (s.push cmp n key v).sp, ¬ p.2.Good cmp acc := by
  have hpush := (h.ok.push v hk hlt).1
  obtain ⟨rest, prev, rfl, hst⟩ := h.stack
  obtain ⟨hd, hq, hk1, htk⟩ := lexBits_lt_div (h.ok.len.trans hk.symm) hlt
  have hred : reduce cmp acc n (.leaf s.q s.v prev :: rest) key =
      (reduceGo cmp acc n (commonPrefixLen s.q key) rest (.leaf s.q s.v prev) >>= fun st => .ok (commonPrefixLen s.q key, st)) := by
    have hr0 : reduce cmp acc n (.leaf s.q s.v prev :: rest) key =
      (if commonPrefixLen s.q key ≤ prev then reduceGo cmp acc n (commonPrefixLen s.q key) rest (.leaf s.q s.v prev) >>= fun st => .ok (commonPrefixLen s.q key, st)
      else .ok (commonPrefixLen s.q key, .leaf s.q s.v prev :: rest)) := rfl
    rw [hr0]
    by_cases hle : commonPrefixLen s.q key ≤ prev
    · rw [if_pos hle]
    · rw [if_neg hle]
      cases rest with
      | nil => rfl
      | cons l r =>
        have : reduceGo cmp acc n (commonPrefixLen s.q key) (l :: r) (.leaf s.q s.v prev) = .ok (.leaf s.q s.v prev :: l :: r) :=
          if_pos (show prev ≤ _ by omega)
        rw [this]
        rfl
  rw [hred]
  have hdn : commonPrefixLen s.q key < n := by rw [← h.ok.len]; exact hd
  have hsp : ∀ p ∈ s.sp, p.1 ≠ commonPrefixLen s.q key ∧ p.1 < s.q.length := by
    intro p hp
    refine ⟨fun he => ?_, by rw [h.ok.len]; exact (h.ok.ok p hp).1⟩
    have := (h.ok.ok p hp).2.1
    rw [he, hq] at this
    cases this
  have hcut : cutAt (commonPrefixLen s.q key) s.sp < s.q.length := by
    cases hs : s.sp with
    | nil => exact hd
    | cons p sp =>
      have := (hsp p (by rw [hs]; exact List.mem_cons_self)).2
      obtain ⟨e, T⟩ := p
      simp only [cutAt] at *
      omega
  have hleaf : ItemAs cmp acc n (.leaf s.q s.v prev) (cutAt (commonPrefixLen s.q key) s.sp) (leafAt n s.q s.v (cutAt (commonPrefixLen s.q key) s.sp + 1)) := by
    have := itemAs_leaf cmp acc hn s.q s.v prev _ hcut
    unfold leafAt
    rw [show n - (cutAt (commonPrefixLen s.q key) s.sp + 1) = n - cutAt (commonPrefixLen s.q key) s.sp - 1 by omega]
    exact this
  rcases reduceGo_spec cmp acc hn s.q (commonPrefixLen s.q key) hdn rest s.sp (.leaf s.q s.v prev) (leafAt n s.q s.v) hst (Or.inl rfl) hsp hleaf with
    ⟨r', rest', he, hi, hst'⟩ | ⟨⟨e, he⟩, hbad⟩
  · left
    rw [he]
    refine ⟨r' :: rest', rfl, hpush, r' :: rest', _, rfl, ?_⟩
    have hb : ∀ p ∈ below (commonPrefixLen s.q key) s.sp, p.1 < commonPrefixLen s.q key := by
      intro p hp
      obtain ⟨h1, h2⟩ := mem_below.mp hp
      have := (hsp p h1).1
      omega
    exact StackIs.cons hi hdn hb hst'
  · right
    rw [he]
    exact ⟨⟨e, rfl⟩, _, List.mem_cons_self, hbad⟩

/-- Left branches stay good if later ones are. -/
theorem push_good {cmp : Comparator} {acc : Cell → Bool} {n : Nat} {s : BState} (h : s.Ok cmp n) {key : Bits} {v : Sl}
    (hg : ∀ p ∈ (s.push cmp n key v).sp, p.2.Good cmp acc) : ∀ p ∈ s.sp, p.2.Good cmp acc := by
  intro p hp
  by_cases hd : p.1 ≤ commonPrefixLen s.q key
  · exact hg p (List.mem_cons_of_mem _ (mem_below.mpr ⟨hp, hd⟩))
  · have := hg _ List.mem_cons_self
    exact (closeDown_part cmp acc n s.q _ _ _ this).1 p (mem_above.mpr ⟨hp, by omega⟩)

/-- `finalize` for a state. -/
theorem finalize_spec (cmp : Comparator) (acc : Cell → Bool) {n : Nat} (hn : n ≤ 1023) {s : BState} {st : List MItem} (h : StackFor cmp acc n s st) :
    ((s.trie cmp n).Good cmp acc → finalize cmp acc n st = .ok (some (s.trie cmp n).cell)) ∧
    (¬ (s.trie cmp n).Good cmp acc → ∃ e, finalize cmp acc n st = .error e) := by
  obtain ⟨rest, prev, rfl, hst⟩ := h.stack
  have hb := buildLabeled_spec acc s.q (n := n) s.v (by omega)
  have hbuild : (MItem.leaf s.q s.v prev).build acc n = (buildLabeled acc s.q n s.v >>= fun x => .ok x.1) := rfl
  have hcell : (leafAt n s.q s.v 0).Good cmp acc ↔ okCell acc (.mk false (labelBits s.q n ++ s.v.bits) s.v.refs) := by
    unfold leafAt
    rw [List.drop_zero, Nat.sub_zero]
    exact Iff.rfl
  have hcell' : (leafAt n s.q s.v 0).cell = .mk false (labelBits s.q n ++ s.v.bits) s.v.refs := by
    unfold leafAt
    rw [List.drop_zero, Nat.sub_zero]
    rfl
  have hfin := finalizeGo_spec cmp acc hn s.q rest s.sp (.leaf s.q s.v prev) (leafAt n s.q s.v) hst (Or.inl rfl)
    (fun p hp => by rw [h.ok.len]; exact (h.ok.ok p hp).1)
    (by
      cases hs : s.sp with
      | nil =>
        intro hg
        rw [hbuild, hb.1 (hcell.mp hg), hcell']
        rfl
      | cons p sp =>
        obtain ⟨e, T⟩ := p
        have he : e < s.q.length := by rw [h.ok.len]; exact (h.ok.ok (e, T) (by rw [hs]; exact List.mem_cons_self)).1
        have := itemAs_leaf cmp acc hn s.q s.v prev e he
        show ItemAs cmp acc n _ e (leafAt n s.q s.v (e + 1))
        unfold leafAt
        rw [show n - (e + 1) = n - e - 1 by omega]
        exact this)
    (by
      intro hs hng
      obtain ⟨e, he⟩ := hb.2 (fun h => hng (hcell.mpr h))
      rw [hbuild, he]
      exact ⟨e, rfl⟩)
  have hf : finalize cmp acc n (.leaf s.q s.v prev :: rest) = ((finalizeGo cmp acc n rest (.leaf s.q s.v prev) >>= fun r => r.build acc n) >>= fun c => .ok (some c)) := by
    show (finalizeGo cmp acc n rest (.leaf s.q s.v prev) >>= fun r => r.build acc n >>= fun c => .ok (some c)) = _
    cases finalizeGo cmp acc n rest (.leaf s.q s.v prev) <;> rfl
  rw [hf]
  refine ⟨fun hg => ?_, fun hg => ?_⟩
  · rw [hfin.1 hg]; rfl
  · obtain ⟨e, he⟩ := hfin.2 hg
    rw [he]; exact ⟨e, rfl⟩

/-- All entries: the pure states. -/
def BState.pushAll (cmp : Comparator) (n : Nat) : List (Bits × Sl) → BState → BState
  | [], s => s
  | (k, v) :: es, s => if k = s.q then pushAll cmp n es s else pushAll cmp n es (s.push cmp n k v)

/-- The value of a key in a list of entries; the first counts. -/
def entryOf : List (Bits × Sl) → Bits → Option Sl
  | [], _ => none
  | (k', v) :: es, k => if k = k' then some v else entryOf es k

theorem pushAll_ok (cmp : Comparator) {n : Nat} : ∀ (es : List (Bits × Sl)) (s : BState), s.Ok cmp n → (∀ e ∈ es, e.1.length = n) →
    (∀ e ∈ es, lexBits s.q e.1 ≠ .gt) → es.Pairwise (fun a b => lexBits a.1 b.1 ≠ .gt) → (s.look s.q).isSome →
    (BState.pushAll cmp n es s).Ok cmp n ∧ ∀ k, (BState.pushAll cmp n es s).look k = (s.look k <|> entryOf es k)
  | [], s, hs, _, _, _, _ => ⟨hs, fun k => by show s.look k = (s.look k <|> none); cases s.look k <;> rfl⟩
  | (key, v) :: es, s, hs, hlen, hle, hsort, hin => by
    rw [List.pairwise_cons] at hsort
    have hlen' : ∀ e ∈ es, e.1.length = n := fun e he => hlen e (List.mem_cons_of_mem _ he)
    have hk : key.length = n := hlen (key, v) List.mem_cons_self
    by_cases hq : key = s.q
    · have := pushAll_ok cmp es s hs hlen' (fun e he => hle e (List.mem_cons_of_mem _ he)) hsort.2 hin
      rw [BState.pushAll, if_pos hq]
      refine ⟨this.1, fun k => ?_⟩
      rw [this.2, entryOf]
      by_cases hk : k = key
      · rw [hk, hq]
        cases h : s.look s.q with
        | none => rw [h] at hin; cases hin
        | some x => rfl
      · rw [if_neg hk]
    · have hlt : lexBits s.q key = .lt := by
        have h1 := hle (key, v) List.mem_cons_self
        have h2 : lexBits s.q key ≠ .eq := fun h => hq ((lexBits_eq_iff (hs.len.trans hk.symm)).mp h).symm
        cases h : lexBits s.q key with
        | lt => rfl
        | eq => exact absurd h h2
        | gt => exact absurd h h1
      obtain ⟨p1, p2⟩ := hs.push v hk hlt
      have hin' : ((s.push cmp n key v).look (s.push cmp n key v).q).isSome := by
        show ((s.push cmp n key v).look key).isSome
        rw [p2, if_pos rfl]
        cases s.look key <;> rfl
      have := pushAll_ok cmp es (s.push cmp n key v) p1 hlen' (fun e he => hsort.1 e he) hsort.2 hin'
      rw [BState.pushAll, if_neg hq]
      refine ⟨this.1, fun k => ?_⟩
      rw [this.2, p2, entryOf]
      by_cases hkk : k = key
      · rw [if_pos hkk, if_pos hkk]
        cases s.look k <;> rfl
      · rw [if_neg hkk, if_neg hkk]
        cases s.look k <;> rfl

theorem pushAll_good {cmp : Comparator} {acc : Cell → Bool} {n : Nat} : ∀ (es : List (Bits × Sl)) (s : BState), s.Ok cmp n → (∀ e ∈ es, e.1.length = n) →
    (∀ e ∈ es, lexBits s.q e.1 ≠ .gt) → es.Pairwise (fun a b => lexBits a.1 b.1 ≠ .gt) →
    (∀ p ∈ (BState.pushAll cmp n es s).sp, p.2.Good cmp acc) → ∀ p ∈ s.sp, p.2.Good cmp acc
  | [], s, _, _, _, _, h => h
  | (key, v) :: es, s, hs, hlen, hle, hsort, h => by
    rw [List.pairwise_cons] at hsort
    have hlen' : ∀ e ∈ es, e.1.length = n := fun e he => hlen e (List.mem_cons_of_mem _ he)
    have hk : key.length = n := hlen (key, v) List.mem_cons_self
    by_cases hq : key = s.q
    · rw [BState.pushAll, if_pos hq] at h
      exact pushAll_good es s hs hlen' (fun e he => hle e (List.mem_cons_of_mem _ he)) hsort.2 h
    · rw [BState.pushAll, if_neg hq] at h
      have hlt : lexBits s.q key = .lt := by
        have h1 := hle (key, v) List.mem_cons_self
        have h2 : lexBits s.q key ≠ .eq := fun h => hq ((lexBits_eq_iff (hs.len.trans hk.symm)).mp h).symm
        cases h : lexBits s.q key with
        | lt => rfl
        | eq => exact absurd h h2
        | gt => exact absurd h h1
      exact push_good hs (pushAll_good es _ (hs.push v hk hlt).1 hlen' (fun e he => hsort.1 e he) hsort.2 h)

theorem lexBits_swap (a b : Bits) : (lexBits a b).swap = lexBits b a := by
  induction a generalizing b with
  | nil => cases b <;> rfl
  | cons x xs ih =>
    cases b with
    | nil => rfl
    | cons y ys =>
      unfold lexBits
      by_cases h : x = y
      · rw [if_pos h, if_pos h.symm, ih]
      · rw [if_neg h, if_neg (show ¬ y = x from fun h' => h h'.symm)]
        cases x <;> cases y <;> first | rfl | exact absurd rfl h

/-- The loop over sorted entries. -/
theorem buildGo_spec (cmp : Comparator) (acc : Cell → Bool) {n : Nat} (hn : n ≤ 1023) : ∀ (es : List (Bits × Sl)) (s : BState) (st : List MItem), StackFor cmp acc n s st →
    (∀ e ∈ es, e.1.length = n) → (∀ e ∈ es, lexBits s.q e.1 ≠ .gt) → es.Pairwise (fun a b => lexBits a.1 b.1 ≠ .gt) →
    (∃ st', buildGo cmp acc n lexBits es (some s.q) st = .ok st' ∧ StackFor cmp acc n (BState.pushAll cmp n es s) st') ∨
    (∃ e, buildGo cmp acc n lexBits es (some s.q) st = .error e) ∧ ∃ p ∈ (BState.pushAll cmp n es s).sp, ¬ p.2.Good cmp acc
  | [], s, st, hst, _, _, _ => Or.inl ⟨st, rfl, hst⟩
  | (key, v) :: es, s, st, hst, hlen, hle, hsort => by
    rw [List.pairwise_cons] at hsort
    have hlen' : ∀ e ∈ es, e.1.length = n := fun e he => hlen e (List.mem_cons_of_mem _ he)
    have hk : key.length = n := hlen (key, v) List.mem_cons_self
    have hs := hst.ok
    by_cases hq : key = s.q
    · rw [BState.pushAll, if_pos hq]
      have hb : buildGo cmp acc n lexBits ((key, v) :: es) (some s.q) st = buildGo cmp acc n lexBits es (some s.q) st := by
        rw [buildGo]
        simp only [Option.map_some, hq, lexBits_refl]
      rw [hb]
      exact buildGo_spec cmp acc hn es s st hst hlen' (fun e he => hle e (List.mem_cons_of_mem _ he)) hsort.2
    · have hlt : lexBits s.q key = .lt := by
        have h1 := hle (key, v) List.mem_cons_self
        have h2 : lexBits s.q key ≠ .eq := fun h => hq ((lexBits_eq_iff (hs.len.trans hk.symm)).mp h).symm
        cases h : lexBits s.q key with
        | lt => rfl
        | eq => exact absurd h h2
        | gt => exact absurd h h1
      have hgt : lexBits key s.q = .gt := by rw [← lexBits_swap, hlt]; rfl
      rw [BState.pushAll, if_neg hq]
      have hb : buildGo cmp acc n lexBits ((key, v) :: es) (some s.q) st =
          (reduce cmp acc n st key >>= fun r => buildGo cmp acc n lexBits es (some key) (.leaf key v r.1 :: r.2)) := by
        rw [buildGo]
        simp only [Option.map_some, hgt]
      rw [hb]
      rcases push_spec cmp acc hn hst v hk hlt with ⟨st', he, hst'⟩ | ⟨⟨e, he⟩, p, hp, hbad⟩
      · rw [he]
        exact buildGo_spec cmp acc hn es (s.push cmp n key v) _ hst' hlen' (fun e he => hsort.1 e he) hsort.2
      · rw [he]
        refine Or.inr ⟨⟨e, rfl⟩, Classical.byContradiction fun hno => hbad ?_⟩
        refine pushAll_good es _ (hs.push v hk hlt).1 hlen' (fun e he => hsort.1 e he) hsort.2 (fun p hp => ?_) p hp
        exact Classical.byContradiction fun hb => hno ⟨p, hp, hb⟩

/-- Entries that are not sorted are refused. -/
theorem buildGo_unsorted (cmp : Comparator) (acc : Cell → Bool) {n : Nat} : ∀ (es : List (Bits × Sl)) (q : Bits) (st : List MItem), q.length = n → (∀ e ∈ es, e.1.length = n) →
    ¬ ((∀ e ∈ es, lexBits q e.1 ≠ .gt) ∧ es.Pairwise (fun a b => lexBits a.1 b.1 ≠ .gt)) → ∃ e, buildGo cmp acc n lexBits es (some q) st = .error e := by
  have trans : ∀ {a b c : Bits}, a.length = n → b.length = n → c.length = n → lexBits a b ≠ .gt → lexBits b c ≠ .gt → lexBits a c ≠ .gt := by
    intro a b c ha hb hc h1 h2
    rw [lexBits_natOfBits (ha.trans hb.symm)] at h1
    rw [lexBits_natOfBits (hb.trans hc.symm)] at h2
    rw [lexBits_natOfBits (ha.trans hc.symm)]
    rw [Ne, Nat.compare_eq_gt] at *
    omega
  intro es
  induction es with
  | nil => intro q st _ _ h; exact absurd ⟨by simp, List.Pairwise.nil⟩ h
  | cons e es ih =>
    intro q st hq hlen h
    obtain ⟨key, v⟩ := e
    have hlen' : ∀ e ∈ es, e.1.length = n := fun e he => hlen e (List.mem_cons_of_mem _ he)
    have hk : key.length = n := hlen (key, v) List.mem_cons_self
    rw [buildGo]
    simp only [Option.map_some]
    cases hc : lexBits key q with
    | lt => exact ⟨_, rfl⟩
    | eq =>
      have hkq : key = q := (lexBits_eq_iff (hk.trans hq.symm)).mp hc
      refine ih q st hq hlen' fun h' => h ⟨fun e he => ?_, List.Pairwise.cons (fun e he => ?_) h'.2⟩
      · rcases List.mem_cons.mp he with e' | e'
        · rw [e', hkq, lexBits_refl]; simp
        · exact h'.1 e e'
      · show lexBits key e.1 ≠ .gt
        rw [hkq]; exact h'.1 e he
    | gt =>
      show ∃ e, (reduce cmp acc n st key >>= _) = .error e
      cases hr : reduce cmp acc n st key with
      | error e => exact ⟨e, rfl⟩
      | ok r =>
        refine ih key _ hk hlen' fun h' => h ⟨fun e he => ?_, List.Pairwise.cons (fun e he => h'.1 e he) h'.2⟩
        have hqk : lexBits q key ≠ .gt := by rw [← lexBits_swap, hc]; simp [Ordering.swap]
        rcases List.mem_cons.mp he with e' | e'
        · rw [e']; exact hqk
        · exact trans hq hk (hlen' e e') hqk (h'.1 e e')

end Verif
