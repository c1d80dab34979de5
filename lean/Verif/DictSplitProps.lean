import Verif.DictSplitLemmas
/-
C29: splitting a dictionary by a key bit and merging siblings; C30: sub-dictionaries.
-/
set_option linter.unusedVariables false
set_option linter.unusedSimpArgs false
namespace Verif

/-- The entries whose keys start with `p`. -/
def under (p : Bits) (m : DMap) : DMap := fun k => if p <+: k then m k else none

theorem representsX_congr {cmp : Comparator} {acc : Cell → Bool} {n : Nat} {d : Option Cell} {m m' : DMap} (h : RepresentsX cmp acc n d m)
    (hm : ∀ k, k.length = n → m' k = m k) : RepresentsX cmp acc n d m' := by
  cases d with
  | none => exact fun k hk => (hm k hk).trans (h k hk)
  | some c =>
    obtain ⟨t, a, b, c, e, f⟩ := h
    exact ⟨t, a, b, c, e, fun k hk => (hm k hk).trans (f k hk)⟩

/-- A map with a canonical trie that cannot be built has no dictionary. -/
theorem not_representsX {cmp : Comparator} {acc : Cell → Bool} {n : Nat} {m : DMap} {t : Trie} (h1 : t.Sized n) (h2 : t.CanonX cmp n)
    (h3 : ¬ t.Good cmp acc) (hm : ∀ k, k.length = n → m k = t.lookup k) (d : Option Cell) : ¬ RepresentsX cmp acc n d m := by
  intro hd
  cases d with
  | none =>
    obtain ⟨k, v, hk, hv⟩ := Trie.exists_key h1
    rw [← hm k hk, hd k hk] at hv; cases hv
  | some c =>
    obtain ⟨t', a1, a2, a3, rfl, a4⟩ := hd
    rw [Trie.canonX_unique h1 a1 h2 a2 (fun k hk => by rw [← hm k hk, a4 k hk])] at h3
    exact h3 a3

theorem under_branch {n : Nat} {l e : Bits} {x : Sl} {a b : Trie} {m : DMap} (hm : ∀ k, k.length = n → m k = (Trie.fork l e x a b).lookup k) (bit : Bool) (n' : Nat)
    (k : Bits) (hk : k.length = n) : under (l ++ [bit]) m k = ((if bit then b else a).relabel ((l ++ [bit]) ++ (if bit then b else a).label) n').lookup k := by
  rw [Trie.lookup_extend]
  unfold under
  cases hs : stripPrefix (l ++ [bit]) k with
  | none => rw [if_neg (stripPrefix_none.mp hs)]
  | some r =>
    have hk' := stripPrefix_some.mp hs
    rw [if_pos ⟨r, hk'.symm⟩, hm k hk, hk', List.append_assoc]
    exact Trie.lookup_fork l e x a b bit r

/-- Splitting by a prefix that all keys share: the left part has exactly the entries that go on with 0, the right
part those that go on with 1. It fails only if one of the parts cannot be built. -/
theorem C29_split (cmp : Comparator) (acc : Cell → Bool) {n : Nat} (hn : n ≤ 1023) {d : Option Cell} {m : DMap} (hd : RepresentsX cmp acc n d m)
    {p : Bits} (hp : p.length < n) (hall : ∀ k, k.length = n → m k ≠ none → p <+: k) :
    match dictSplit acc d n p with
    | .ok (l, r) => RepresentsX cmp acc n l (under (p ++ [false]) m) ∧ RepresentsX cmp acc n r (under (p ++ [true]) m)
    | .error _ => ∃ bit, ∀ d', ¬ RepresentsX cmp acc n d' (under (p ++ [bit]) m) := by
  have hn0 : ¬ n = 0 := by omega
  cases d with
  | none =>
    have : dictSplit acc none n p = .ok (none, none) := if_neg hn0
    rw [this]
    have hu : ∀ b k, k.length = n → under (p ++ [b]) m k = none := by
      intro b k hk
      unfold under
      rw [hd k hk]
      split <;> rfl
    exact ⟨hu false, hu true⟩
  | some c =>
    obtain ⟨t, hs, hc, hg, rfl, hm⟩ := hd
    have hpl : p <+: t.label := Trie.prefix_label hs (fun k hk => by
      cases hl : t.lookup k with
      | none => exact absurd hl hk
      | some v =>
        have hkn := Trie.lookup_some_length hs hl
        exact hall k hkn (by rw [hm k hkn]; exact hk))
    have hun : dictSplit acc (some t.cell) n p = (match stripPrefix p t.label with
      | none => .error .cellUnderflow
      | some (bit :: _) => .ok (if bit then (none, some t.cell) else (some t.cell, none))
      | some [] =>
        if n < t.label.length + 1 then .error .cellUnderflow
        else (rebuildBranch acc n p (n - (t.label.length + 1)) false t.body.refs[0]? >>= fun l =>
          rebuildBranch acc n p (n - (t.label.length + 1)) true t.body.refs[1]? >>= fun r => .ok (some l, some r))) := by
      unfold dictSplit
      rw [if_neg hn0]
      dsimp only
      rw [asSlice_cell]
      show (readLabel ⟨t.cell.bits, t.cell.refs⟩ n >>= _) = _
      rw [readLabel_cell hs hn]
      rfl
    rw [hun]
    obtain ⟨q, hq⟩ := hpl
    rw [← hq, stripPrefix_append]
    cases q with
    | cons bit q =>
      dsimp only
      -- all entries are on one side
      have hside : ∀ k, k.length = n → under (p ++ [bit]) m k = m k := by
        intro k hk
        unfold under
        by_cases h : p ++ [bit] <+: k
        · rw [if_pos h]
        · rw [if_neg h, hm k hk]
          cases hl : t.lookup k with
          | none => rfl
          | some v =>
            refine absurd ?_ h
            refine List.IsPrefix.trans ?_ (Trie.label_prefix hl)
            rw [← hq]
            exact ⟨q, by simp⟩
      have hother : ∀ k, k.length = n → under (p ++ [!bit]) m k = none := by
        intro k hk
        unfold under
        by_cases h : p ++ [!bit] <+: k
        · rw [if_pos h, hm k hk]
          cases hl : t.lookup k with
          | none => rfl
          | some v =>
            obtain ⟨r1, h1⟩ := h
            obtain ⟨r2, h2⟩ := Trie.label_prefix hl
            rw [← hq, ← h1, List.append_assoc, List.append_assoc, List.append_cancel_left_eq] at h2
            cases bit <;> cases h2
        · rw [if_neg h]
      have hw : RepresentsX cmp acc n (some t.cell) (under (p ++ [bit]) m) :=
        ⟨t, hs, hc, hg, rfl, fun k hk => by rw [hside k hk, hm k hk]⟩
      cases bit
      · exact ⟨hw, hother⟩
      · exact ⟨hother, hw⟩
    | nil =>
      dsimp only
      cases t with
      | leaf l e v =>
        have h1 : l.length = n := hs.1
        have h2 : p ++ [] = l := hq
        rw [← h2] at h1
        simp at h1
        omega
      | fork l e x a b =>
        have h2 : p = l := by rw [List.append_nil] at hq; exact hq
        subst h2
        rw [List.append_nil, if_neg (by omega)]
        have e0 : (Trie.fork p e x a b).body.refs[0]? = some a.cell := rfl
        have e1 : (Trie.fork p e x a b).body.refs[1]? = some b.cell := rfl
        rw [e0, e1]
        have hsub : n - p.length - 1 = n - (p.length + 1) := by omega
        have hsa : a.Sized (n - (p.length + 1)) := hsub ▸ hs.2.2.1
        have hsb : b.Sized (n - (p.length + 1)) := hsub ▸ hs.2.2.2
        have hca : a.CanonX cmp (n - (p.length + 1)) := hsub ▸ hc.2.2.1
        have hcb : b.CanonX cmp (n - (p.length + 1)) := hsub ▸ hc.2.2.2
        have ba := rebuildBranch_spec acc hn (p := p) false hsa (by omega)
        have bb := rebuildBranch_spec acc hn (p := p) true hsb (by omega)
        have ea : p ++ false :: a.label = (p ++ [false]) ++ a.label := by simp
        have eb : p ++ true :: b.label = (p ++ [true]) ++ b.label := by simp
        rw [ea] at ba
        rw [eb] at bb
        have sa := Trie.sized_extend (m := n) (p := p ++ [false]) hsa (by simp; omega)
        have sb := Trie.sized_extend (m := n) (p := p ++ [true]) hsb (by simp; omega)
        have ca := Trie.canonX_extend (m := n) (p := p ++ [false]) hsa hca (by simp; omega)
        have cb := Trie.canonX_extend (m := n) (p := p ++ [true]) hsb hcb (by simp; omega)
        have la := under_branch hm false n
        have lb := under_branch hm true n
        have ga := Trie.good_relabel (l := (p ++ [false]) ++ a.label) (n := n) hg.2.2.1
        have gb := Trie.good_relabel (l := (p ++ [true]) ++ b.label) (n := n) hg.2.2.2
        by_cases h1 : okCell acc (a.relabel ((p ++ [false]) ++ a.label) n).cell
        · rw [ba.1 h1]
          show match (rebuildBranch acc n p (n - (p.length + 1)) true (some b.cell) >>= fun r => Except.ok (some (a.relabel ((p ++ [false]) ++ a.label) n).cell, some r)) with
            | .ok (l, r) => _
            | .error _ => _
          by_cases h2 : okCell acc (b.relabel ((p ++ [true]) ++ b.label) n).cell
          · rw [bb.1 h2]
            exact ⟨⟨_, sa, ca, ga.mpr h1, rfl, la⟩, ⟨_, sb, cb, gb.mpr h2, rfl, lb⟩⟩
          · obtain ⟨err, he⟩ := bb.2 h2
            rw [he]
            exact ⟨true, not_representsX sb cb (fun h => h2 (gb.mp h)) lb⟩
        · obtain ⟨err, he⟩ := ba.2 h1
          rw [he]
          exact ⟨false, not_representsX sa ca (fun h => h1 (ga.mp h)) la⟩

/-- A prefix that not all keys share is refused. -/
theorem C29_split_refused (cmp : Comparator) (acc : Cell → Bool) {n : Nat} (hn : n ≤ 1023) (hn0 : 0 < n) {c : Cell} {m : DMap} (hd : RepresentsX cmp acc n (some c) m)
    {p : Bits} (hall : ¬ ∀ k, k.length = n → m k ≠ none → p <+: k) : dictSplit acc (some c) n p = .error .cellUnderflow := by
  obtain ⟨t, hs, hc, hg, rfl, hm⟩ := hd
  unfold dictSplit
  rw [if_neg (by omega)]
  dsimp only
  rw [asSlice_cell]
  show (readLabel ⟨t.cell.bits, t.cell.refs⟩ n >>= _) = _
  rw [readLabel_cell hs hn]
  have : stripPrefix p t.label = none := by
    rw [stripPrefix_none]
    intro h
    refine hall fun k hk hmk => h.trans ?_
    rw [hm k hk] at hmk
    cases hl : t.lookup k with
    | none => exact absurd hl hmk
    | some v => exact Trie.label_prefix hl
  show (match stripPrefix p t.label with
      | none => Except.error Err.cellUnderflow
      | some (bit :: _) => _
      | some [] => _) = _
  rw [this]

/-- All keys of the first map start with `p0` and all keys of the second with `p1`, for some `p`. -/
def Siblings (n : Nat) (m1 m2 : DMap) : Prop :=
  ∃ p, (∀ k, k.length = n → m1 k ≠ none → p ++ [false] <+: k) ∧ (∀ k, k.length = n → m2 k ≠ none → p ++ [true] <+: k)

/-- The references of a node in front of its extra. -/
def Trie.nrefs : Trie → Nat
  | .leaf .. => 0
  | .fork .. => 2

def Trie.isFork : Trie → Bool
  | .leaf .. => false
  | .fork .. => true

theorem skip_ext' (l : Bits) (n : Nat) (t : Trie) :
    (asSlice (t.relabel l n).cell >>= fun s => s.skip (labelBits l n).length t.nrefs) = .ok t.ext := by
  cases t <;> exact skip_ext l n _ _ rfl

theorem siblingNode_spec (cmp : Comparator) (acc : Cell → Bool) (l : Bits) (n : Nat) (A B : Trie) (lr rr : Bits) (n' : Nat) (lf rf : Bool)
    (hlf : lf = A.isFork) (hrf : rf = B.isFork)
    (h : (labelBits l n).length ≤ 1023) :
    let A' := A.relabel lr n'
    let B' := B.relabel rr n'
    (okCell acc (Trie.joinX cmp l n A' B').cell ∧ (∀ f, cmp = some f → ∃ y, f A'.ext B'.ext = .ok y) →
      (siblingNode cmp ⟨labelBits l n, []⟩ A'.cell B'.cell A.body B.body lf rf >>= buildSl acc) = .ok (Trie.joinX cmp l n A' B').cell) ∧
    (¬ (okCell acc (Trie.joinX cmp l n A' B').cell ∧ (∀ f, cmp = some f → ∃ y, f A'.ext B'.ext = .ok y)) →
      ∃ e, (siblingNode cmp ⟨labelBits l n, []⟩ A'.cell B'.cell A.body B.body lf rf >>= buildSl acc) = .error e) := by
  intro A' B'
  have hA := fun (f : Sl → Sl → Except Err Sl) (_ : cmp = some f) => skip_ext' lr n' A
  have hB := fun (f : Sl → Sl → Except Err Sl) (_ : cmp = some f) => skip_ext' rr n' B
  have hAe : A'.ext = A.ext := Trie.relabel_ext A lr n'
  have hBe : B'.ext = B.ext := Trie.relabel_ext B rr n'
  have hm := mergeNode_spec cmp acc l n A' B' (_, _) (_, _) (fun f hf => by rw [hAe]; exact hA f hf) (fun f hf => by rw [hBe]; exact hB f hf) h
  have heq : siblingNode cmp ⟨labelBits l n, []⟩ A'.cell B'.cell A.body B.body lf rf =
      mergeNode cmp ⟨labelBits l n, []⟩ A'.cell B'.cell ((labelBits lr n').length, A.nrefs)
        ((labelBits rr n').length, B.nrefs) := by
    cases cmp with
    | none => rfl
    | some f =>
      have skA : (if lf then A.body.skip 0 2 else .ok A.body) = (.ok A.ext : Except Err Sl) := by
        subst hlf; cases A <;> rfl
      have skB : (if rf then B.body.skip 0 2 else .ok B.body) = (.ok B.ext : Except Err Sl) := by
        subst hrf; cases B <;> rfl
      have h1 : siblingNode (some f) ⟨labelBits l n, []⟩ A'.cell B'.cell A.body B.body lf rf =
          ((if lf then A.body.skip 0 2 else .ok A.body) >>= fun ls => (if rf then B.body.skip 0 2 else .ok B.body) >>= fun rs =>
            f ls rs >>= fun x => Sl.storeSlice ⟨labelBits l n, [A'.cell, B'.cell]⟩ x) := by
        unfold siblingNode
        cases lf <;> cases rf <;> rfl
      rw [h1, skA, skB]
      have e1 := hA f rfl
      have e2 := hB f rfl
      have h2 : mergeNode (some f) ⟨labelBits l n, []⟩ A'.cell B'.cell ((labelBits lr n').length, A.nrefs)
          ((labelBits rr n').length, B.nrefs) =
          ((asSlice A'.cell >>= fun ls => ls.skip (labelBits lr n').length A.nrefs) >>= fun ls =>
            (asSlice B'.cell >>= fun rs => rs.skip (labelBits rr n').length B.nrefs) >>= fun rs =>
            f ls rs >>= fun x => Sl.storeSlice ⟨labelBits l n, [A'.cell, B'.cell]⟩ x) := by
        show ((asSlice A'.cell) >>= fun ls => ls.skip _ _ >>= fun ls => asSlice B'.cell >>= fun rs => rs.skip _ _ >>= fun rs =>
          f ls rs >>= fun x => Sl.storeSlice ⟨labelBits l n, [A'.cell, B'.cell]⟩ x) = _
        rw [asSlice_cell, asSlice_cell]
        rfl
      rw [h2, e1, e2]
  rw [heq]
  exact hm

theorem orElse_none (x : Option Sl) : (x <|> none) = x := by cases x <;> rfl

theorem lookup_joinX (cmp : Comparator) (c : Bits) (n : Nat) (A B : Trie) (k : Bits) : (Trie.joinX cmp c n A B).lookup k =
    (lk (c ++ [false]) A k <|> lk (c ++ [true]) B k) := by
  have := lk_joinX cmp [] c n A B k
  rw [List.nil_append] at this
  exact this

/-- The outcome of merging two non-empty dictionaries. -/
def MergeOut (cmp : Comparator) (acc : Cell → Bool) (n : Nat) (m1 m2 : DMap) : Except Err (Option Cell) → Prop
  | .ok d => Siblings n m1 m2 ∧ RepresentsX cmp acc n d (fun k => m1 k <|> m2 k)
  | .error _ => ¬ Siblings n m1 m2 ∨ ∀ d, ¬ RepresentsX cmp acc n d (fun k => m1 k <|> m2 k)

/-- Merging two non-empty dictionaries: the result is the dictionary of the union. It works exactly for siblings
whose union can be built. -/
theorem C29_merge (cmp : Comparator) (acc : Cell → Bool) {n : Nat} (hn : n ≤ 1023) {c1 c2 : Cell} {m1 m2 : DMap} (h1 : RepresentsX cmp acc n (some c1) m1)
    (h2 : RepresentsX cmp acc n (some c2) m2) :
    MergeOut cmp acc n m1 m2 (mergeSiblings cmp acc n (some c1) (some c2)) := by
  obtain ⟨t1, s1, k1, g1, rfl, l1⟩ := h1
  obtain ⟨t2, s2, k2, g2, rfl, l2⟩ := h2
  have hall : ∀ {t : Trie} {m : DMap} {p : Bits}, t.Sized n → (∀ k, k.length = n → m k = t.lookup k) → (∀ k, k.length = n → m k ≠ none → p <+: k) → p <+: t.label := by
    intro t m p hs hl h
    refine Trie.prefix_label hs fun k hk => ?_
    cases hx : t.lookup k with
    | none => exact absurd hx hk
    | some v =>
      have hkn := Trie.lookup_some_length hs hx
      exact h k hkn (by rw [hl k hkn]; exact hk)
  have hback : ∀ {t : Trie} {m : DMap} {p : Bits}, (∀ k, k.length = n → m k = t.lookup k) → p <+: t.label → (∀ k, k.length = n → m k ≠ none → p <+: k) := by
    intro t m p hl h k hk hmk
    rw [hl k hk] at hmk
    cases hx : t.lookup k with
    | none => exact absurd hx hmk
    | some v => exact h.trans (Trie.label_prefix hx)
  have hun : mergeRoots cmp acc n t1.cell t2.cell = 
      (if min t1.label.length t2.label.length = 0 then .error .invalidData
      else if commonPrefixLen t1.label t2.label ≥ min t1.label.length t2.label.length ∨ n < commonPrefixLen t1.label t2.label + 1 then .error .invalidData
      else match t1.label.drop (commonPrefixLen t1.label t2.label), t2.label.drop (commonPrefixLen t1.label t2.label) with
        | false :: ll', true :: rl' => (
          makeLeaf acc ll' (n - 1 - commonPrefixLen t1.label t2.label) t1.body >>= fun left =>
          makeLeaf acc rl' (n - 1 - commonPrefixLen t1.label t2.label) t2.body >>= fun right =>
          writeLabel (t1.label.take (commonPrefixLen t1.label t2.label)) n .empty >>= fun b =>
          siblingNode cmp b left right t1.body t2.body (ll'.length < n - 1 - commonPrefixLen t1.label t2.label) (rl'.length < n - 1 - commonPrefixLen t1.label t2.label) >>= fun b =>
          buildSl acc b)
        | _, _ => .error .invalidData) := by
    unfold mergeRoots
    rw [asSlice_cell, asSlice_cell]
    show (readLabel ⟨t1.cell.bits, t1.cell.refs⟩ n >>= fun x => readLabel ⟨t2.cell.bits, t2.cell.refs⟩ n >>= _) = _
    rw [readLabel_cell s1 hn, readLabel_cell s2 hn]
    rfl
  have hms : mergeSiblings cmp acc n (some t1.cell) (some t2.cell) = (mergeRoots cmp acc n t1.cell t2.cell >>= fun c => .ok (some c)) := rfl
  rw [hms]
  by_cases hsib : ∃ c l' r', t1.label = c ++ false :: l' ∧ t2.label = c ++ true :: r'
  · obtain ⟨c, l', r', e1, e2⟩ := hsib
    have hS : Siblings n m1 m2 := ⟨c, hback l1 (by rw [e1]; exact ⟨l', by simp⟩), hback l2 (by rw [e2]; exact ⟨r', by simp⟩)⟩
    have hcpl : commonPrefixLen t1.label t2.label = c.length := by rw [e1, e2]; exact commonPrefixLen_split c false r' l'
    have hl1 := s1.length_le
    have hl2 := s2.length_le
    have ll1 : t1.label.length = c.length + (l'.length + 1) := by rw [e1]; simp
    have ll2 : t2.label.length = c.length + (r'.length + 1) := by rw [e2]; simp
    have d1 : t1.label.drop c.length = false :: l' := by rw [e1]; simp
    have d2 : t2.label.drop c.length = true :: r' := by rw [e2]; simp
    have tk : t1.label.take c.length = c := by rw [e1]; simp
    rw [hcpl, if_neg (by omega), if_neg (by omega), d1, d2, tk] at hun
    dsimp only at hun
    rw [hun]
    -- the parts
    have hrem : n - 1 - c.length = n - c.length - 1 := by omega
    rw [hrem]
    have b1 := makeLeaf_builds acc l' t1.body (n := n - c.length - 1) (by omega)
    have b2 := makeLeaf_builds acc r' t2.body (n := n - c.length - 1) (by omega)
    rw [← relabel_cell] at b1 b2
    let A := t1.relabel l' (n - c.length - 1)
    let B := t2.relabel r' (n - c.length - 1)
    let M := Trie.joinX cmp c n A B
    have sA : A.Sized (n - c.length - 1) := Trie.sized_relabel s1 (by omega) (by omega)
    have sB : B.Sized (n - c.length - 1) := Trie.sized_relabel s2 (by omega) (by omega)
    have cA : A.CanonX cmp (n - c.length - 1) := Trie.canonX_relabel k1 (by omega)
    have cB : B.CanonX cmp (n - c.length - 1) := Trie.canonX_relabel k2 (by omega)
    have sM : M.Sized n := ⟨by omega, labelBits_enc _ _ (by omega), sA, sB⟩
    have cM : M.CanonX cmp n := ⟨rfl, rfl, cA, cB⟩
    have look : ∀ {t : Trie} {q : Bits} (bit : Bool) (k : Bits), t.label = c ++ bit :: q → lk (c ++ [bit]) (t.relabel q (n - c.length - 1)) k = t.lookup k := by
      intro t q bit k hl
      unfold lk
      cases hs : stripPrefix (c ++ [bit]) k with
      | some r =>
        rw [stripPrefix_some.mp hs]
        exact Trie.lookup_relabel t (c ++ [bit]) q _ (by rw [hl]; simp) r
      | none =>
        have hnp := stripPrefix_none.mp hs
        cases hx : t.lookup k with
        | none => rfl
        | some v =>
          refine absurd (List.IsPrefix.trans ?_ (Trie.label_prefix hx)) hnp
          rw [hl]; exact ⟨q, by simp⟩
    have lM : ∀ k, k.length = n → (fun k => m1 k <|> m2 k) k = M.lookup k := by
      intro k hk
      show (m1 k <|> m2 k) = _
      rw [lookup_joinX, look false k e1, look true k e2, l1 k hk, l2 k hk]
    have gA := Trie.good_relabel (l := l') (n := n - c.length - 1) g1
    have gB := Trie.good_relabel (l := r') (n := n - c.length - 1) g2
    have bad : ¬ M.Good cmp acc → ∀ d, ¬ RepresentsX cmp acc n d (fun k => m1 k <|> m2 k) := fun h => not_representsX sM cM h lM
    by_cases o1 : okCell acc A.cell
    · rw [b1.1 o1]
      show MergeOut cmp acc n m1 m2 ((makeLeaf acc r' (n - c.length - 1) t2.body >>= fun right => _) >>= _)
      by_cases o2 : okCell acc B.cell
      · rw [b2.1 o2]
        show MergeOut cmp acc n m1 m2 ((writeLabel c n .empty >>= fun b => _) >>= _)
        obtain ⟨w1, w2⟩ := writeLabel_empty (l := c) (n := n) (by omega)
        by_cases hw : (labelBits c n).length ≤ 1023
        · rw [w1 hw]
          have hlf : decide (l'.length < n - c.length - 1) = t1.isFork := by
            cases t1 with
            | leaf l e v =>
              have : l.length = n := s1.1
              have ll1 : l.length = _ := ll1
              simp [Trie.isFork]; omega
            | fork l e x a b =>
              have : l.length < n := s1.1
              have ll1 : l.length = _ := ll1
              simp [Trie.isFork]; omega
          have hrf : decide (r'.length < n - c.length - 1) = t2.isFork := by
            cases t2 with
            | leaf l e v =>
              have : l.length = n := s2.1
              have ll2 : l.length = _ := ll2
              simp [Trie.isFork]; omega
            | fork l e x a b =>
              have : l.length < n := s2.1
              have ll2 : l.length = _ := ll2
              simp [Trie.isFork]; omega
          have sn := siblingNode_spec cmp acc c n t1 t2 l' r' (n - c.length - 1) _ _ hlf hrf hw
          dsimp only at sn
          have hG : M.Good cmp acc ↔ (okCell acc M.cell ∧ (∀ f, cmp = some f → ∃ y, f A.ext B.ext = .ok y)) :=
            ⟨fun h => ⟨h.1, h.2.1⟩, fun h => ⟨h.1, h.2, gA.mpr o1, gB.mpr o2⟩⟩
          show MergeOut cmp acc n m1 m2 ((siblingNode cmp ⟨labelBits c n, []⟩ A.cell B.cell t1.body t2.body (decide (l'.length < n - c.length - 1)) (decide (r'.length < n - c.length - 1)) >>= buildSl acc) >>= fun c => Except.ok (some c))
          by_cases hg : M.Good cmp acc
          · rw [sn.1 (hG.mp hg)]
            exact ⟨hS, M, sM, cM, hg, rfl, lM⟩
          · obtain ⟨e, he⟩ := sn.2 (fun h => hg (hG.mpr h))
            rw [he]
            exact Or.inr (bad hg)
        · obtain ⟨e, he⟩ := w2 hw
          rw [he]
          refine Or.inr (bad fun h => hw ?_)
          have : M.cell.bits.length ≤ 1023 := h.1.1
          have hc : M.cell.bits = labelBits c n ++ (cmp.get A.ext B.ext).bits := rfl
          rw [hc, List.length_append] at this
          omega
      · obtain ⟨e, he⟩ := b2.2 o2
        rw [he]
        exact Or.inr (bad fun h => o2 (gB.mp h.2.2.2))
    · obtain ⟨e, he⟩ := b1.2 o1
      rw [he]
      exact Or.inr (bad fun h => o1 (gA.mp h.2.2.1))
  · -- not siblings
    have hnS : ¬ Siblings n m1 m2 := by
      rintro ⟨p, hp1, hp2⟩
      obtain ⟨r1, q1⟩ := hall s1 l1 hp1
      obtain ⟨r2, q2⟩ := hall s2 l2 hp2
      exact hsib ⟨p, r1, r2, by rw [← q1]; simp, by rw [← q2]; simp⟩
    have herr : ∃ e, mergeRoots cmp acc n t1.cell t2.cell = .error e := by
      rw [hun]
      by_cases z1 : min t1.label.length t2.label.length = 0
      · rw [if_pos z1]; exact ⟨_, rfl⟩
      · rw [if_neg z1]
        by_cases z2 : commonPrefixLen t1.label t2.label ≥ min t1.label.length t2.label.length ∨ n < commonPrefixLen t1.label t2.label + 1
        · rw [if_pos z2]; exact ⟨_, rfl⟩
        · rw [if_neg z2]
          split
          · rename_i ll' rl' hd1 hd2
            exfalso
            refine hsib ⟨t1.label.take (commonPrefixLen t1.label t2.label), ll', rl', ?_, ?_⟩
            · rw [← hd1, List.take_append_drop]
            · have : t1.label.take (commonPrefixLen t1.label t2.label) = t2.label.take (commonPrefixLen t1.label t2.label) := by
                have cp : ∀ a b : Bits, a.take (commonPrefixLen a b) = b.take (commonPrefixLen a b) := by
                  intro a
                  induction a with
                  | nil => intro b; simp [commonPrefixLen]
                  | cons x xs ih =>
                    intro b
                    cases b with
                    | nil => simp [commonPrefixLen]
                    | cons y ys =>
                      rw [commonPrefixLen]
                      by_cases h : x = y
                      · rw [if_pos h, h, List.take_succ_cons, List.take_succ_cons, ih]
                      · rw [if_neg h]; rfl
                exact cp _ _
              rw [this, ← hd2, List.take_append_drop]
          · exact ⟨_, rfl⟩
    obtain ⟨e, he⟩ := herr
    rw [he]
    exact Or.inl hnS

/-- An empty side changes nothing. -/
theorem C29_merge_empty (cmp : Comparator) (acc : Cell → Bool) (n : Nat) (d : Option Cell) :
    mergeSiblings cmp acc n d none = .ok d ∧ mergeSiblings cmp acc n none d = .ok d := by
  cases d <;> exact ⟨rfl, rfl⟩

/-- Merging the parts of a split dictionary restores it, including all extras. -/
theorem C29_round_trip (cmp : Comparator) (acc : Cell → Bool) {n : Nat} (hn : n ≤ 1023) {d : Option Cell} {m : DMap} (hd : RepresentsX cmp acc n d m)
    {p : Bits} (hp : p.length < n) {l r : Option Cell} (h : dictSplit acc d n p = .ok (l, r)) : mergeSiblings cmp acc n l r = .ok d := by
  have hn0 : 0 < n := by omega
  cases d with
  | none =>
    have : dictSplit acc none n p = .ok (none, none) := if_neg (by omega)
    rw [this] at h
    injection h with h
    injection h with h1 h2
    subst h1 h2
    rfl
  | some c =>
    by_cases hall : ∀ k, k.length = n → m k ≠ none → p <+: k
    rotate_left
    · rw [C29_split_refused cmp acc hn hn0 hd hall] at h; cases h
    have hs := C29_split cmp acc hn hd hp hall
    rw [h] at hs
    obtain ⟨hl, hr⟩ := hs
    have hsplit : ∀ k, k.length = n → m k = (under (p ++ [false]) m k <|> under (p ++ [true]) m k) := by
      intro k hk
      unfold under
      by_cases hmk : m k = none
      · rw [hmk]; split <;> split <;> rfl
      · obtain ⟨q, hq⟩ := hall k hk hmk
        cases q with
        | nil => rw [List.append_nil] at hq; rw [hq] at hp; omega
        | cons b q =>
          cases b with
          | false =>
            have : p ++ [false] <+: k := ⟨q, by rw [← hq]; simp⟩
            rw [if_pos this]
            cases hx : m k with
            | none => exact absurd hx hmk
            | some v => rfl
          | true =>
            have h1 : p ++ [true] <+: k := ⟨q, by rw [← hq]; simp⟩
            have h2 : ¬ p ++ [false] <+: k := by
              rintro ⟨q', hq'⟩
              rw [← hq, List.append_assoc, List.append_cancel_left_eq] at hq'
              cases hq'
            rw [if_pos h1, if_neg h2]; rfl
    cases l with
    | none =>
      have hrm : RepresentsX cmp acc n r m := representsX_congr hr (fun k hk => by rw [hsplit k hk, hl k hk]; rfl)
      rw [(C29_merge_empty cmp acc n r).2, representsX_unique hrm hd (fun _ _ => rfl)]
    | some lc =>
      cases r with
      | none =>
        have hlm : RepresentsX cmp acc n (some lc) m := representsX_congr hl (fun k hk => by rw [hsplit k hk, hr k hk, orElse_none])
        rw [(C29_merge_empty cmp acc n _).1, representsX_unique hlm hd (fun _ _ => rfl)]
      | some rc =>
        have hm := C29_merge cmp acc hn hl hr
        have hu : RepresentsX cmp acc n (some c) (fun k => under (p ++ [false]) m k <|> under (p ++ [true]) m k) :=
          representsX_congr hd (fun k hk => (hsplit k hk).symm)
        cases hx : mergeSiblings cmp acc n (some lc) (some rc) with
        | error e =>
          rw [hx] at hm
          rcases hm with hm | hm
          · refine absurd ⟨p, fun k hk h' => ?_, fun k hk h' => ?_⟩ hm
            · unfold under at h'
              by_cases hp' : p ++ [false] <+: k
              · exact hp'
              · rw [if_neg hp'] at h'; exact absurd rfl h'
            · unfold under at h'
              by_cases hp' : p ++ [true] <+: k
              · exact hp'
              · rw [if_neg hp'] at h'; exact absurd rfl h'
          · exact absurd hu (hm _)
        | ok d' =>
          rw [hx] at hm
          rw [representsX_unique hm.2 hu (fun _ _ => rfl)]

/-- The raw split: the branches as they are, with the length of their keys. -/
theorem C29_split_raw (cmp : Comparator) (acc : Cell → Bool) {n : Nat} (hn : n ≤ 1023) (hn0 : 0 < n) {d : Option Cell} {m : DMap} (hd : RepresentsX cmp acc n d m) :
    ∃ n' l r, dictSplitRaw d n = .ok (n', l, r) ∧
      ((n' = n ∧ RepresentsX cmp acc n l (under [false] m) ∧ RepresentsX cmp acc n r (under [true] m)) ∨
       (n' + 1 = n ∧ RepresentsX cmp acc n' l (fun k => m (false :: k)) ∧ RepresentsX cmp acc n' r (fun k => m (true :: k)))) := by
  cases d with
  | none =>
    have : dictSplitRaw none n = .ok (n, none, none) := if_neg (by omega)
    refine ⟨n, none, none, this, Or.inl ⟨rfl, fun k hk => ?_, fun k hk => ?_⟩⟩ <;>
    · unfold under; rw [hd k hk]; split <;> rfl
  | some c =>
    obtain ⟨t, hs, hc, hg, rfl, hm⟩ := hd
    have hun : dictSplitRaw (some t.cell) n = (match t.label with
      | bit :: _ => .ok (if bit then (n, none, some t.cell) else (n, some t.cell, none))
      | [] => match t.body.refs[0]?, t.body.refs[1]? with
        | some l, some r => .ok (n - 1, some l, some r)
        | _, _ => .error .cellUnderflow) := by
      unfold dictSplitRaw
      rw [if_neg (by omega)]
      dsimp only
      rw [asSlice_cell]
      show (readLabel ⟨t.cell.bits, t.cell.refs⟩ n >>= _) = _
      rw [readLabel_cell hs hn]
      rfl
    rw [hun]
    cases hl : t.label with
    | cons bit q =>
      have hall : ∀ k, k.length = n → m k ≠ none → [bit] <+: k := by
        intro k hk h
        rw [hm k hk] at h
        cases hx : t.lookup k with
        | none => exact absurd hx h
        | some v =>
          refine List.IsPrefix.trans ?_ (Trie.label_prefix hx)
          rw [hl]; exact ⟨q, rfl⟩
      have hside : ∀ k, k.length = n → under [bit] m k = m k := by
        intro k hk
        unfold under
        by_cases h : [bit] <+: k
        · rw [if_pos h]
        · rw [if_neg h]
          cases hx : m k with
          | none => rfl
          | some v => exact absurd (hall k hk (by rw [hx]; simp)) h
      have hother : ∀ k, k.length = n → under [!bit] m k = none := by
        intro k hk
        unfold under
        by_cases h : [!bit] <+: k
        · rw [if_pos h]
          cases hx : m k with
          | none => rfl
          | some v =>
            obtain ⟨r1, e1⟩ := hall k hk (by rw [hx]; simp)
            obtain ⟨r2, e2⟩ := h
            rw [← e1] at e2
            cases bit <;> cases e2
        · rw [if_neg h]
      have hw : RepresentsX cmp acc n (some t.cell) (under [bit] m) := ⟨t, hs, hc, hg, rfl, fun k hk => by rw [hside k hk, hm k hk]⟩
      cases bit
      · exact ⟨_, _, _, rfl, Or.inl ⟨rfl, hw, hother⟩⟩
      · exact ⟨_, _, _, rfl, Or.inl ⟨rfl, hother, hw⟩⟩
    | nil =>
      cases t with
      | leaf l e v =>
        have h1 : l.length = n := hs.1
        have : l = [] := hl
        rw [this] at h1
        simp at h1; omega
      | fork l e x a b =>
        have : l = [] := hl
        subst this
        have hsub : n - ([] : Bits).length - 1 = n - 1 := by simp
        refine ⟨n - 1, some a.cell, some b.cell, rfl, Or.inr ⟨by omega, ?_, ?_⟩⟩
        · exact ⟨a, hsub ▸ hs.2.2.1, hsub ▸ hc.2.2.1, hg.2.2.1, rfl, fun k hk => by
            show m (false :: k) = _
            rw [hm _ (by simp; omega)]
            exact Trie.lookup_fork [] e x a b false k⟩
        · exact ⟨b, hsub ▸ hs.2.2.2, hsub ▸ hc.2.2.2, hg.2.2.2, rfl, fun k hk => by
            show m (true :: k) = _
            rw [hm _ (by simp; omega)]
            exact Trie.lookup_fork [] e x a b true k⟩

/-- A dictionary with three keys split below a common prefix, and merged again. -/
example :
    let es : List (Bits × Sl) := [([false, false, true], ⟨[true], []⟩), ([false, true, false], ⟨[false], []⟩), ([false, true, true], ⟨[true], []⟩)]
    ((buildDict none accAll 3 lexBits es >>= fun d => dictSplit accAll d 3 [false] >>= fun p => mergeSiblings none accAll 3 p.1 p.2 >>= fun d' =>
      .ok (p.1.isSome, p.2.isSome)).toOption = some (true, true)) := by decide

/-! ## C30: sub-dictionaries -/

/-- The parts that hold: nothing of nothing, and the empty prefix. -/
theorem C30_trivial_partial (acc : Cell → Bool) (n : Nat) (d : Option Cell) (p : Bits) :
    dictSubdict acc none n p = .ok none ∧ dictSubdict acc d n [] = .ok d := by
  refine ⟨rfl, ?_⟩
  cases d with
  | none => rfl
  | some c =>
    unfold dictSubdict
    exact if_pos (Or.inl rfl)

/-- The full property is false. With the keys 0100, 0111 and 1000, the sub-dictionary of the prefix 0 has neither the
whole keys nor what follows the prefix in them: labels are read and written with the length of the prefix. -/
theorem C30_wrong : ∃ d c, buildDict none accAll 4 lexBits [([false, true, false, false], ⟨[true], []⟩), ([false, true, true, true], ⟨[true], []⟩), ([true, false, false, false], ⟨[true], []⟩)] = .ok d ∧
    dictSubdict accAll d 4 [false] = .ok (some c) ∧
    dictGet (some c) 4 [false, true, false, false] = .ok none ∧ dictGet (some c) 3 [true, false, false] = .ok none :=
  ⟨_, _, rfl, rfl, rfl, rfl⟩

/-- And a prefix without entries gives a dictionary in which the prefix itself appears as a key. -/
theorem C30_absent_wrong : ∃ d c v, buildDict none accAll 4 lexBits [([false, false, false, false], ⟨[true], []⟩), ([false, false, true, true], ⟨[true], []⟩)] = .ok d ∧
    dictSubdict accAll d 4 [true, false] = .ok (some c) ∧ dictGet (some c) 2 [true, false] = .ok (some v) :=
  ⟨_, _, _, rfl, rfl, rfl⟩

end Verif
