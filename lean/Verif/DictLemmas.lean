import Verif.Dict
/-
Refinement of the dictionary operations of `Dict.lean` to the trie specification of `DictTrie.lean`.
-/
set_option linter.unusedVariables false
set_option linter.unusedSimpArgs false
namespace Verif

/-- What follows the label in the cell of a node. -/
def Trie.body : Trie → Sl
  | .leaf l e v => v
  | .fork l e x a b => ⟨x.bits, a.cell :: b.cell :: x.refs⟩

theorem asSlice_cell (t : Trie) : asSlice t.cell = .ok ⟨t.cell.bits, t.cell.refs⟩ := by cases t <;> rfl

theorem readLabel_cell {n : Nat} {t : Trie} (hs : t.Sized n) (hn : n ≤ 1023) :
    readLabel ⟨t.cell.bits, t.cell.refs⟩ n = .ok (t.label, t.body) := by
  cases t with
  | leaf l e v => exact readLabel_enc hs.2 (Nat.le_of_eq hs.1) hn _ _
  | fork l e x a b => exact readLabel_enc hs.2.1 (Nat.le_of_lt hs.1) hn _ _

theorem relabel_cell (t : Trie) (l : Bits) (n : Nat) : (t.relabel l n).cell = .mk false (labelBits l n ++ t.body.bits) t.body.refs := by
  cases t <;> rfl

/-! ### Building -/

/-- A computation that yields the cell `c` if it can be built and fails otherwise. -/
def Builds (acc : Cell → Bool) (x : Except Err Cell) (c : Cell) : Prop :=
  (okCell acc c → x = .ok c) ∧ (¬ okCell acc c → ∃ e, x = .error e)

theorem writeLabel_empty {l : Bits} {n : Nat} (hn : n ≤ 65535) :
    ((labelBits l n).length ≤ 1023 → writeLabel l n .empty = .ok ⟨labelBits l n, []⟩) ∧
    (¬ (labelBits l n).length ≤ 1023 → ∃ e, writeLabel l n .empty = .error e) := by
  have := writeLabel_appends l hn .empty
  simp only [Sl.empty, List.length_nil, Nat.zero_add, List.nil_append] at this
  exact this

theorem store_build (acc : Cell → Bool) (b v : Sl) :
    (okCell acc (.mk false (b.bits ++ v.bits) (b.refs ++ v.refs)) → (b.storeSlice v >>= buildSl acc) = .ok (.mk false (b.bits ++ v.bits) (b.refs ++ v.refs))) ∧
    (¬ okCell acc (.mk false (b.bits ++ v.bits) (b.refs ++ v.refs)) → ∃ e, (b.storeSlice v >>= buildSl acc) = .error e) := by
  unfold Sl.storeSlice okCell
  simp only [Cell.bits, Cell.refs, List.length_append]
  by_cases h : b.bits.length + v.bits.length ≤ 1023 ∧ b.refs.length + v.refs.length ≤ 4
  · rw [if_pos h]
    constructor
    · intro ⟨_, _, h3⟩
      show buildSl acc _ = _
      unfold buildSl
      rw [if_pos h3]
    · intro h2
      refine ⟨.depthOverflow, ?_⟩
      show buildSl acc _ = _
      unfold buildSl
      rw [if_neg (fun h3 => h2 ⟨h.1, h.2, h3⟩)]
  · rw [if_neg h]
    exact ⟨fun h' => absurd ⟨h'.1, h'.2.1⟩ h, fun _ => ⟨_, rfl⟩⟩

theorem makeLeaf_builds (acc : Cell → Bool) (l : Bits) {n : Nat} (v : Sl) (hn : n ≤ 65535) :
    Builds acc (makeLeaf acc l n v) (.mk false (labelBits l n ++ v.bits) v.refs) := by
  obtain ⟨w1, w2⟩ := writeLabel_empty (l := l) hn
  unfold makeLeaf Builds
  by_cases h : (labelBits l n).length ≤ 1023
  · rw [w1 h]
    have := store_build acc ⟨labelBits l n, []⟩ v
    simp only [List.nil_append] at this
    exact this
  · refine ⟨fun hok => absurd ?_ h, fun _ => ?_⟩
    · have := hok.1
      simp only [Cell.bits, List.length_append] at this
      omega
    · obtain ⟨e, he⟩ := w2 h
      rw [he]; exact ⟨e, rfl⟩

theorem makeFork_builds (acc : Cell → Bool) (l : Bits) {n : Nat} (a b : Cell) (hn : n ≤ 65535) :
    Builds acc (makeFork acc l n a b) (.mk false (labelBits l n) [a, b]) := by
  obtain ⟨w1, w2⟩ := writeLabel_empty (l := l) hn
  unfold makeFork Builds
  by_cases h : (labelBits l n).length ≤ 1023
  · rw [w1 h]
    show (_ → buildSl acc ⟨labelBits l n, [a, b]⟩ = _) ∧ (_ → ∃ e, buildSl acc ⟨labelBits l n, [a, b]⟩ = _)
    unfold buildSl okCell
    constructor
    · intro h'
      exact if_pos h'.2.2
    · intro h'
      exact ⟨_, if_neg fun h3 => h' ⟨h, by simp [Cell.refs], h3⟩⟩
  · refine ⟨fun hok => absurd hok.1 h, fun _ => ?_⟩
    obtain ⟨e, he⟩ := w2 h
    rw [he]; exact ⟨e, rfl⟩

theorem rebuildOne_builds (acc : Cell → Bool) (l e : Bits) (x : Sl) (a b : Trie) (bit : Bool) (m : Nat) (t' : Trie) :
    Builds acc (rebuildOne acc ⟨(Trie.fork l e x a b).cell, bit, m⟩ t'.cell)
      (Trie.fork l e ⟨x.bits, []⟩ (if bit then a else t') (if bit then t' else b)).cell := by
  unfold Builds okCell
  have e1 : (Sl.empty.storeBits (Trie.fork l e x a b).cell.bits) = if (e ++ x.bits).length ≤ 1023 then .ok ⟨e ++ x.bits, []⟩ else .error .cellOverflow := by
    unfold Sl.storeBits
    simp only [Sl.empty, Trie.cell, Cell.bits, List.length_nil, Nat.zero_add, List.nil_append]
  have e2 : ∀ y z : Trie, (Trie.fork l e ⟨x.bits, []⟩ y z).cell = .mk false (e ++ x.bits) [y.cell, z.cell] := fun _ _ => rfl
  have key : rebuildOne acc ⟨(Trie.fork l e x a b).cell, bit, m⟩ t'.cell =
      if (e ++ x.bits).length ≤ 1023 then buildSl acc ⟨e ++ x.bits, [(if bit then a else t').cell, (if bit then t' else b).cell]⟩ else .error .cellOverflow := by
    by_cases h : (e ++ x.bits).length ≤ 1023
    · rw [if_pos h] at e1 ⊢
      cases bit
      · unfold rebuildOne
        show (Sl.empty.storeBits (Trie.fork l e x a b).cell.bits >>= _) = _
        rw [e1]; rfl
      · unfold rebuildOne
        show (Sl.empty.storeBits (Trie.fork l e x a b).cell.bits >>= _) = _
        rw [e1]; rfl
    · rw [if_neg h] at e1 ⊢
      cases bit
      · unfold rebuildOne
        show (Sl.empty.storeBits (Trie.fork l e x a b).cell.bits >>= _) = _
        rw [e1]; rfl
      · unfold rebuildOne
        show (Sl.empty.storeBits (Trie.fork l e x a b).cell.bits >>= _) = _
        rw [e1]; rfl
  rw [key, e2]
  unfold buildSl
  simp only [Cell.bits, Cell.refs]
  constructor
  · intro ⟨h1, _, h3⟩
    rw [if_pos h1, if_pos h3]
  · intro h'
    by_cases h1 : (e ++ x.bits).length ≤ 1023
    · rw [if_pos h1, if_neg (fun h3 => h' ⟨h1, by simp, h3⟩)]
      exact ⟨_, rfl⟩
    · rw [if_neg h1]
      exact ⟨_, rfl⟩

/-! ### Lookup -/

theorem dictGetGo_step {n : Nat} {t : Trie} (hs : t.Sized n) (hn : n ≤ 1023) {key : Bits} (hk : key.length = n) (fuel : Nat) :
    dictGetGo (fuel + 1) key t.cell = (match stripPrefix t.label key with
      | none => if key = [] then .ok (some t.body) else .ok none
      | some [] => .ok (some t.body)
      | some (bit :: key') =>
        if t.body.refs.length < 2 then .ok none
        else match t.cell.refs[bit.toNat]? with
          | none => .error .cellUnderflow
          | some child => dictGetGo fuel key' child) := by
  rw [dictGetGo, asSlice_cell]
  show (readLabel _ key.length >>= _) = _
  rw [hk, readLabel_cell hs hn]
  rfl

theorem dictGetGo_spec : ∀ {n : Nat} {t : Trie}, t.Sized n → n ≤ 1023 → ∀ {key : Bits}, key.length = n → ∀ fuel, n < fuel →
    dictGetGo fuel key t.cell = .ok (t.lookup key)
  | n, t, hs, hn, key, hk, 0, hf => absurd hf (by omega)
  | n, t, hs, hn, key, hk, fuel + 1, hf => by
    rw [dictGetGo_step hs hn hk]
    rcases Trie.key_cases hs hk with ⟨e, w, rfl⟩ | ⟨l, e, x, a, b, bit, r, rfl, h, hr⟩ | ⟨c, bit, l', k', h1, h2⟩
    · have : stripPrefix (Trie.leaf key e w).label key = some [] := stripPrefix_some.mpr (List.append_nil key).symm
      rw [this, Trie.lookup_leaf, if_pos rfl]
      rfl
    · have : stripPrefix (Trie.fork l e x a b).label key = some (bit :: r) := stripPrefix_some.mpr h
      rw [this, h, Trie.lookup_fork]
      have h1 := hs.1
      dsimp only
      rw [if_neg (by simp [Trie.body])]
      cases bit
      · exact dictGetGo_spec hs.2.2.1 (by omega) hr fuel (by omega)
      · exact dictGetGo_spec hs.2.2.2 (by omega) hr fuel (by omega)
    · have hnp : ∀ r, key ≠ t.label ++ r := fun r hh => Trie.label_not_prefix h1 r (h2 ▸ hh)
      have : stripPrefix t.label key = none := by
        cases hsp : stripPrefix t.label key with
        | none => rfl
        | some r => exact absurd (stripPrefix_some.mp hsp) (hnp r)
      rw [this, Trie.lookup_not_prefix hnp]
      dsimp only
      rw [if_neg (by rw [h2]; simp)]

/-! ### Insertion -/

theorem dictInsertGo_step (acc : Cell → Bool) (mode : SetMode) (v : Sl) {n : Nat} {t : Trie} (hs : t.Sized n) (hn : n ≤ 1023) {key : Bits}
    (hk : key.length = n) (fuel : Nat) (stack : List Seg) :
    dictInsertGo acc mode v (fuel + 1) key t.cell stack = (
      if commonPrefixLen key t.label = key.length then
        if mode.canReplace = false then .ok (.stop (some t.body))
        else makeLeaf acc t.label key.length v >>= fun leaf => .ok (.found leaf (some t.body) stack)
      else if commonPrefixLen key t.label < t.label.length then
        if mode.canAdd = false then .ok (.stop none)
        else splitEdge acc t.body t.label (commonPrefixLen key t.label) key v >>= fun leaf => .ok (.found leaf none stack)
      else if t.cell.refs.length < 2 then .error .cellUnderflow
      else match key.drop (commonPrefixLen key t.label) with
        | [] => .error .cellUnderflow
        | bit :: key' => match t.cell.refs[bit.toNat]? with
          | none => .error .cellUnderflow
          | some child => dictInsertGo acc mode v fuel key' child (⟨t.cell, bit, key.length⟩ :: stack)) := by
  rw [dictInsertGo, asSlice_cell]
  show (readLabel _ key.length >>= _) = _
  rw [hk, readLabel_cell hs hn]
  rw [← hk]
  rfl

/-- The specified outcome of the search and the rebuilding. -/
def insFinish (acc : Cell → Bool) (x : Except Err InsOut) : Except Err (Option Cell × Option Sl) :=
  x >>= fun o => match o with
    | .stop old => .ok (none, old)
    | .found leaf old stack => rebuild acc stack leaf >>= fun c => .ok (some c, old)

theorem splitEdge_builds (acc : Cell → Bool) {t : Trie} {c l' k' : Bits} {bit : Bool} (h1 : t.label = c ++ (!bit) :: l') (v : Sl)
    (hn : (c ++ bit :: k').length ≤ 1023) (hf : t.Fits acc) :
    ((t.set (c ++ bit :: k') v).Fits acc →
      splitEdge acc t.body t.label c.length (c ++ bit :: k') v = .ok (t.set (c ++ bit :: k') v).cell) ∧
    (¬ (t.set (c ++ bit :: k') v).Fits acc → ∃ e, splitEdge acc t.body t.label c.length (c ++ bit :: k') v = .error e) := by
  have hk' : (c ++ bit :: k').drop (c.length + 1) = k' := by
    rw [show c ++ bit :: k' = (c ++ [bit]) ++ k' from by simp, List.drop_left' (by simp)]
  have hkl : k'.length ≤ 1023 := by simp at hn; omega
  have hl' : t.label.drop c.length = (!bit) :: l' := by rw [h1, List.drop_left]
  have ht : (c ++ bit :: k').take c.length = c := by rw [List.take_left]
  have hfit : (t.set (c ++ bit :: k') v).Fits acc ↔
      okCell acc (t.set (c ++ bit :: k') v).cell ∧ okCell acc (t.relabel l' k'.length).cell ∧ okCell acc (Trie.mkLeaf k' v).cell := by
    rw [Trie.set_split v h1 rfl]
    have hsub : ∀ {u : Trie}, u.Fits acc → ∀ l n, ((u.relabel l n).Fits acc ↔ okCell acc (u.relabel l n).cell) := by
      intro u hu l n
      cases u with
      | leaf _ _ _ => exact Iff.rfl
      | fork _ _ _ _ _ => exact ⟨fun h => h.1, fun h => ⟨h, hu.2⟩⟩
    have ho := hsub hf l' k'.length
    unfold Trie.mkFork
    constructor
    · rintro ⟨g1, g2, g3⟩
      refine ⟨g1, ?_⟩
      cases bit
      · exact ⟨ho.mp g3, g2⟩
      · exact ⟨ho.mp g2, g3⟩
    · rintro ⟨g1, g2, g3⟩
      refine ⟨g1, ?_⟩
      cases bit
      · exact ⟨g3, ho.mpr g2⟩
      · exact ⟨ho.mpr g2, g3⟩
  have key : splitEdge acc t.body t.label c.length (c ++ bit :: k') v =
      (makeLeaf acc l' k'.length t.body >>= fun left => makeLeaf acc k' k'.length v >>= fun right =>
        if !bit then makeFork acc c (c ++ bit :: k').length right left else makeFork acc c (c ++ bit :: k').length left right) := by
    unfold splitEdge
    rw [if_neg (by simp)]
    dsimp only
    rw [hk', hl', ht]
  have b1 := makeLeaf_builds acc l' t.body (n := k'.length) (by omega)
  have b2 := makeLeaf_builds acc k' v (n := k'.length) (by omega)
  rw [← relabel_cell] at b1
  have e2 : (Trie.mkLeaf k' v).cell = .mk false (labelBits k' k'.length ++ v.bits) v.refs := rfl
  rw [← e2] at b2
  have b3 : Builds acc (if !bit then makeFork acc c (c ++ bit :: k').length (Trie.mkLeaf k' v).cell (t.relabel l' k'.length).cell
      else makeFork acc c (c ++ bit :: k').length (t.relabel l' k'.length).cell (Trie.mkLeaf k' v).cell) (t.set (c ++ bit :: k') v).cell := by
    rw [Trie.set_split v h1 rfl]
    cases bit
    · have := makeFork_builds acc c (n := (c ++ false :: k').length) (Trie.mkLeaf k' v).cell (t.relabel l' k'.length).cell (by omega)
      simpa [Trie.mkFork, Trie.cell, Sl.empty] using this
    · have := makeFork_builds acc c (n := (c ++ true :: k').length) (t.relabel l' k'.length).cell (Trie.mkLeaf k' v).cell (by omega)
      simpa [Trie.mkFork, Trie.cell, Sl.empty] using this
  rw [key, hfit]
  by_cases g1 : okCell acc (t.relabel l' k'.length).cell
  · rw [b1.1 g1]
    by_cases g2 : okCell acc (Trie.mkLeaf k' v).cell
    · rw [b2.1 g2]
      refine ⟨fun h => b3.1 h.1, fun h => b3.2 fun h' => h ⟨h', g1, g2⟩⟩
    · refine ⟨fun h => absurd h.2.2 g2, fun _ => ?_⟩
      obtain ⟨e, he⟩ := b2.2 g2
      rw [he]; exact ⟨e, rfl⟩
  · refine ⟨fun h => absurd h.2.1 g1, fun _ => ?_⟩
    obtain ⟨e, he⟩ := b1.2 g1
    rw [he]; exact ⟨e, rfl⟩

/-- The insertion is refused by the mode. -/
def refused (mode : SetMode) (old : Option Sl) : Prop :=
  (old.isSome = true ∧ mode.canReplace = false) ∨ (old.isSome = false ∧ mode.canAdd = false)

theorem refused_some {mode : SetMode} {w : Sl} : refused mode (some w) ↔ mode.canReplace = false := by simp [refused]
theorem refused_none {mode : SetMode} : refused mode none ↔ mode.canAdd = false := by simp [refused]

theorem Trie.fits_cell {acc : Cell → Bool} {t : Trie} (h : t.Fits acc) : okCell acc t.cell := by
  cases t with
  | leaf _ _ _ => exact h
  | fork _ _ _ _ _ => exact h.1

theorem dictInsertGo_spec (acc : Cell → Bool) (mode : SetMode) (v : Sl) : ∀ {n : Nat} {t : Trie}, t.Sized n → n ≤ 1023 → t.Fits acc →
    ∀ {key : Bits}, key.length = n → ∀ fuel, n < fuel → ∀ stack : List Seg,
    (refused mode (t.lookup key) → dictInsertGo acc mode v fuel key t.cell stack = .ok (.stop (t.lookup key))) ∧
    (¬ refused mode (t.lookup key) →
      ((t.set key v).Fits acc → insFinish acc (dictInsertGo acc mode v fuel key t.cell stack) =
        (rebuild acc stack (t.set key v).cell >>= fun c => .ok (some c, t.lookup key))) ∧
      (¬ (t.set key v).Fits acc → ∃ e, insFinish acc (dictInsertGo acc mode v fuel key t.cell stack) = .error e))
  | n, t, hs, hn, hf, key, hk, 0, hfu, stack => absurd hfu (by omega)
  | n, t, hs, hn, hf, key, hk, fuel + 1, hfu, stack => by
    rw [dictInsertGo_step acc mode v hs hn hk]
    rcases Trie.key_cases hs hk with ⟨e, w, rfl⟩ | ⟨l, e, x, a, b, bit, r, rfl, h, hr⟩ | ⟨c, bit, l', k', h1, h2⟩
    · have hc : commonPrefixLen key (Trie.leaf key e w).label = key.length := by
        have := commonPrefixLen_full key []
        rwa [List.append_nil] at this
      rw [if_pos hc, Trie.lookup_leaf, if_pos rfl, refused_some, Trie.set_leaf]
      have hb := makeLeaf_builds acc key v (n := key.length) (by omega)
      refine ⟨fun hm => ?_, fun hm => ⟨fun hfit => ?_, fun hfit => ?_⟩⟩
      · rw [if_pos hm]; rfl
      · rw [if_neg hm]
        have : makeLeaf acc (Trie.leaf key e w).label key.length v = .ok (Trie.mkLeaf key v).cell := hb.1 hfit
        rw [this]; rfl
      · rw [if_neg hm]
        obtain ⟨e', he⟩ := hb.2 hfit
        have : makeLeaf acc (Trie.leaf key e w).label key.length v = .error e' := he
        rw [this]; exact ⟨e', rfl⟩
    · have hc : commonPrefixLen key (Trie.fork l e x a b).label = l.length := by rw [h]; exact commonPrefixLen_full l _
      have h1 := hs.1
      rw [hc, if_neg (by omega), if_neg (by simp [Trie.label])]
      have hd : key.drop l.length = bit :: r := by rw [h, List.drop_left]
      rw [if_neg (by simp [Trie.cell, Cell.refs]), hd]
      dsimp only
      rw [h, Trie.lookup_fork, Trie.set_fork]
      have hch : (Trie.fork l e x a b).cell.refs[bit.toNat]? = some (if bit then b else a).cell := by cases bit <;> rfl
      rw [hch]
      dsimp only
      have hsz : (if bit then b else a).Sized (n - l.length - 1) := by
        cases bit
        · exact hs.2.2.1
        · exact hs.2.2.2
      have hft : (if bit then b else a).Fits acc := by
        cases bit
        · exact hf.2.1
        · exact hf.2.2
      obtain ⟨i1, i2⟩ := dictInsertGo_spec acc mode v hsz (by omega) hft hr fuel (by omega) (⟨(Trie.fork l e x a b).cell, bit, (l ++ bit :: r).length⟩ :: stack)
      refine ⟨i1, fun hm => ?_⟩
      obtain ⟨j1, j2⟩ := i2 hm
      have hb := rebuildOne_builds acc l e x a b bit (l ++ bit :: r).length ((if bit then b else a).set r v)
      have hset : ∀ b' : Bool, b' = bit → (Trie.fork l e ⟨x.bits, []⟩ (if bit then a else (if bit then b else a).set r v) (if bit then (if bit then b else a).set r v else b))
          = Trie.fork l e ⟨x.bits, []⟩ (if bit then a else a.set r v) (if bit then b.set r v else b) := by
        intro b' _
        cases bit <;> rfl
      rw [hset bit rfl] at hb
      have hfits : (Trie.fork l e ⟨x.bits, []⟩ (if bit then a else a.set r v) (if bit then b.set r v else b)).Fits acc ↔
          okCell acc (Trie.fork l e ⟨x.bits, []⟩ (if bit then a else a.set r v) (if bit then b.set r v else b)).cell ∧ ((if bit then b else a).set r v).Fits acc := by
        cases bit
        · exact ⟨fun h => ⟨h.1, h.2.1⟩, fun h => ⟨h.1, h.2, hf.2.2⟩⟩
        · exact ⟨fun h => ⟨h.1, h.2.2⟩, fun h => ⟨h.1, hf.2.1, h.2⟩⟩
      rw [hfits]
      refine ⟨fun ⟨g1, g2⟩ => ?_, fun g => ?_⟩
      · rw [j1 g2, rebuild, hb.1 g1]
        rfl
      · by_cases g2 : ((if bit then b else a).set r v).Fits acc
        · rw [j1 g2, rebuild]
          obtain ⟨e', he⟩ := hb.2 (fun g1 => g ⟨g1, g2⟩)
          rw [he]; exact ⟨e', rfl⟩
        · exact j2 g2
    · have hc : commonPrefixLen key t.label = c.length := by rw [h1, h2]; exact commonPrefixLen_split c bit l' k'
      have hlk : t.lookup key = none := Trie.lookup_not_prefix fun r hh => Trie.label_not_prefix h1 r (h2 ▸ hh)
      have hcl : c.length < key.length := by rw [h2]; simp
      have hcl2 : c.length < t.label.length := by rw [h1]; simp
      rw [hc, if_neg (by omega), if_pos hcl2, hlk, refused_none]
      obtain ⟨s1, s2⟩ := splitEdge_builds acc h1 v (k' := k') (by rw [← h2]; omega) hf
      rw [← h2] at s1 s2
      refine ⟨fun hm => ?_, fun hm => ⟨fun hfit => ?_, fun hfit => ?_⟩⟩
      · rw [if_pos hm]
      · rw [if_neg hm, s1 hfit]; rfl
      · rw [if_neg hm]
        obtain ⟨e', he⟩ := s2 hfit
        rw [he]; exact ⟨e', rfl⟩

/-! ### Removal -/

theorem dictFindRemove_step {n : Nat} {t : Trie} (hs : t.Sized n) (hn : n ≤ 1023) {key : Bits}
    (hk : key.length = n) (fuel : Nat) (stack : List Seg) (prev : Nat) :
    dictFindRemove (fuel + 1) key t.cell stack prev = (
      if commonPrefixLen key t.label = key.length then .ok (some ⟨stack, t.body, key, prev⟩)
      else if commonPrefixLen key t.label < t.label.length then .ok none
      else if t.cell.refs.length < 2 then .error .cellUnderflow
      else match key.drop (commonPrefixLen key t.label) with
        | [] => .error .cellUnderflow
        | bit :: key' => match t.cell.refs[bit.toNat]? with
          | none => .error .cellUnderflow
          | some child => dictFindRemove fuel key' child (⟨t.cell, bit, key.length⟩ :: stack) key.length) := by
  rw [dictFindRemove, asSlice_cell]
  show (readLabel _ key.length >>= _) = _
  rw [hk, readLabel_cell hs hn]
  rw [← hk]
  rfl

/-- The end of `dict_remove_owned`: the new root (if anything is left) and the removed value. -/
def remFinish (acc : Cell → Bool) (r : RemOut) : Except Err (Option Cell × Sl) :=
  match r.stack with
  | [] => .ok (none, r.value)
  | s :: stack => rebuildRemoved acc s r.key.length r.prev >>= fun leaf => rebuild acc stack leaf >>= fun c => .ok (some c, r.value)

theorem fits_relabel {acc : Cell → Bool} {u : Trie} (hu : u.Fits acc) (l : Bits) (n : Nat) :
    (u.relabel l n).Fits acc ↔ okCell acc (u.relabel l n).cell := by
  cases u with
  | leaf _ _ _ => exact Iff.rfl
  | fork _ _ _ _ _ => exact ⟨fun h => h.1, fun h => ⟨h, hu.2⟩⟩

theorem rebuildRemoved_builds (acc : Cell → Bool) {n : Nat} {l e : Bits} {x : Sl} {a b : Trie} (hs : (Trie.fork l e x a b).Sized n) (hn : n ≤ 1023)
    (bit : Bool) (m : Nat) :
    Builds acc (rebuildRemoved acc ⟨(Trie.fork l e x a b).cell, bit, m⟩ (n - l.length - 1) n)
      ((if bit then a else b).relabel (l ++ (!bit) :: (if bit then a else b).label) n).cell := by
  have h1 := hs.1
  have hopp : (Trie.fork l e x a b).cell.refs[if bit then 0 else 1]? = some (if bit then a else b).cell := by cases bit <;> rfl
  have hsz : (if bit then a else b).Sized (n - l.length - 1) := by
    cases bit
    · exact hs.2.2.2
    · exact hs.2.2.1
  generalize hu : (if bit then a else b) = u at *
  have key : rebuildRemoved acc ⟨(Trie.fork l e x a b).cell, bit, m⟩ (n - l.length - 1) n =
      (writeLabelParts l (!bit) u.label n .empty >>= fun b => b.storeSlice u.body >>= buildSl acc) := by
    unfold rebuildRemoved
    dsimp only
    rw [readLabel_cell hs hn, hopp]
    show (asSlice u.cell >>= _) = _
    rw [asSlice_cell]
    show (readLabel _ _ >>= _) = _
    rw [readLabel_cell hsz (by omega)]
    rfl
  rw [key, relabel_cell]
  have ha := writeLabelParts_appends l (!bit) u.label (n := n) (by omega) (by omega) .empty
  simp only [Sl.empty, List.length_nil, Nat.zero_add, List.nil_append] at ha
  unfold Builds
  by_cases h : (labelBits (l ++ (!bit) :: u.label) n).length ≤ 1023
  · have hw := ha.1 h
    have hw' : writeLabelParts l (!bit) u.label n .empty = .ok ⟨labelBits (l ++ (!bit) :: u.label) n, []⟩ := hw
    rw [hw']
    have := store_build acc ⟨labelBits (l ++ (!bit) :: u.label) n, []⟩ u.body
    simp only [List.nil_append] at this
    exact this
  · refine ⟨fun hok => absurd ?_ h, fun _ => ?_⟩
    · have := hok.1
      simp only [Cell.bits, List.length_append] at this ⊢
      omega
    · obtain ⟨e', he⟩ := ha.2 h
      have he' : writeLabelParts l (!bit) u.label n .empty = .error e' := he
      rw [he']; exact ⟨e', rfl⟩

theorem dictFindRemove_spec (acc : Cell → Bool) : ∀ {n : Nat} {t : Trie}, t.Sized n → n ≤ 1023 → t.Fits acc →
    ∀ {key : Bits}, key.length = n → ∀ fuel, n < fuel → ∀ (stack : List Seg) (prev : Nat),
    (t.lookup key = none → dictFindRemove fuel key t.cell stack prev = .ok none) ∧
    (∀ w, t.lookup key = some w → 
      (t.remove key = none → dictFindRemove fuel key t.cell stack prev = .ok (some ⟨stack, w, key, prev⟩)) ∧
      (∀ t', t.remove key = some t' → ∃ r, dictFindRemove fuel key t.cell stack prev = .ok (some r) ∧
        (t'.Fits acc → remFinish acc r = (rebuild acc stack t'.cell >>= fun c => .ok (some c, w))) ∧
        (¬ t'.Fits acc → ∃ e, remFinish acc r = .error e)))
  | n, t, hs, hn, hf, key, hk, 0, hfu, stack, prev => absurd hfu (by omega)
  | n, t, hs, hn, hf, key, hk, fuel + 1, hfu, stack, prev => by
    rw [dictFindRemove_step hs hn hk]
    rcases Trie.key_cases hs hk with ⟨e, w, rfl⟩ | ⟨l, e, x, a, b, bit, r, rfl, h, hr⟩ | ⟨c, bit, l', k', h1, h2⟩
    · have hc : commonPrefixLen key (Trie.leaf key e w).label = key.length := by
        have := commonPrefixLen_full key []
        rwa [List.append_nil] at this
      rw [if_pos hc, Trie.lookup_leaf, if_pos rfl]
      refine ⟨fun h => (by cases h), fun w' hw => ?_⟩
      cases hw
      exact ⟨fun _ => rfl, fun t' ht => by cases ht⟩
    · have hc : commonPrefixLen key (Trie.fork l e x a b).label = l.length := by rw [h]; exact commonPrefixLen_full l _
      have h1 := hs.1
      rw [hc, if_neg (by omega), if_neg (by simp [Trie.label])]
      have hd : key.drop l.length = bit :: r := by rw [h, List.drop_left]
      rw [if_neg (by simp [Trie.cell, Cell.refs]), hd]
      dsimp only
      have hkl : (l ++ bit :: r).length = n := by rw [← h]; exact hk
      rw [h, Trie.lookup_fork, Trie.remove_fork, hkl]
      have hch : (Trie.fork l e x a b).cell.refs[bit.toNat]? = some (if bit then b else a).cell := by cases bit <;> rfl
      rw [hch]
      dsimp only
      have hsz : (if bit then b else a).Sized (n - l.length - 1) := by
        cases bit
        · exact hs.2.2.1
        · exact hs.2.2.2
      have hft : (if bit then b else a).Fits acc := by
        cases bit
        · exact hf.2.1
        · exact hf.2.2
      have hfo : (if bit then a else b).Fits acc := by
        cases bit
        · exact hf.2.2
        · exact hf.2.1
      obtain ⟨i1, i2⟩ := dictFindRemove_spec acc hsz (by omega) hft hr fuel (by omega) (⟨(Trie.fork l e x a b).cell, bit, n⟩ :: stack) n
      refine ⟨i1, fun w hw => ?_⟩
      obtain ⟨j1, j2⟩ := i2 w hw
      refine ⟨fun hh => (by cases hh), fun t' ht => ?_⟩
      injection ht with ht
      cases hrem : (if bit then b else a).remove r with
      | none =>
        rw [hrem] at ht
        dsimp only at ht
        refine ⟨_, j1 hrem, ?_⟩
        have hb := rebuildRemoved_builds acc hs hn bit n
        rw [ht] at hb
        have hft' : t'.Fits acc ↔ okCell acc t'.cell := by rw [← ht]; exact fits_relabel hfo _ _
        rw [hft']
        unfold remFinish
        dsimp only
        rw [hr]
        refine ⟨fun g => ?_, fun g => ?_⟩
        · rw [hb.1 g]; rfl
        · obtain ⟨e', he⟩ := hb.2 g
          rw [he]; exact ⟨e', rfl⟩
      | some u =>
        rw [hrem] at ht
        dsimp only at ht
        obtain ⟨ro, g1, g2, g3⟩ := j2 u hrem
        refine ⟨ro, g1, ?_⟩
        have hb := rebuildOne_builds acc l e x a b bit n u
        rw [ht] at hb
        have hfits : t'.Fits acc ↔ okCell acc t'.cell ∧ u.Fits acc := by
          rw [← ht]
          cases bit
          · exact ⟨fun h => ⟨h.1, h.2.1⟩, fun h => ⟨h.1, h.2, hf.2.2⟩⟩
          · exact ⟨fun h => ⟨h.1, h.2.2⟩, fun h => ⟨h.1, hf.2.1, h.2⟩⟩
        rw [hfits]
        refine ⟨fun ⟨f1, f2⟩ => ?_, fun g => ?_⟩
        · rw [g2 f2, rebuild, hb.1 f1]; rfl
        · by_cases f2 : u.Fits acc
          · rw [g2 f2, rebuild]
            obtain ⟨e', he⟩ := hb.2 (fun f1 => g ⟨f1, f2⟩)
            rw [he]; exact ⟨e', rfl⟩
          · exact g3 f2
    · have hc : commonPrefixLen key t.label = c.length := by rw [h1, h2]; exact commonPrefixLen_split c bit l' k'
      have hlk : t.lookup key = none := Trie.lookup_not_prefix fun r hh => Trie.label_not_prefix h1 r (h2 ▸ hh)
      have hcl : c.length < key.length := by rw [h2]; simp
      have hcl2 : c.length < t.label.length := by rw [h1]; simp
      rw [hc, if_neg (by omega), if_pos hcl2, hlk]
      exact ⟨fun _ => rfl, fun w hw => by cases hw⟩

end Verif
