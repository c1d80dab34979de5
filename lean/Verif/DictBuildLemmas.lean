import Verif.DictAug
/-
The merge stack of `DictBuild.lean` builds a trie.
-/
set_option linter.unusedVariables false
set_option linter.unusedSimpArgs false
namespace Verif

theorem buildLabeled_spec (acc : Cell → Bool) (l : Bits) {n : Nat} (v : Sl) (hn : n ≤ 65535) :
    (okCell acc (.mk false (labelBits l n ++ v.bits) v.refs) →
      buildLabeled acc l n v = .ok (.mk false (labelBits l n ++ v.bits) v.refs, (labelBits l n).length)) ∧
    (¬ okCell acc (.mk false (labelBits l n ++ v.bits) v.refs) → ∃ e, buildLabeled acc l n v = .error e) := by
  obtain ⟨w1, w2⟩ := writeLabel_empty (l := l) hn
  unfold buildLabeled
  by_cases h : (labelBits l n).length ≤ 1023
  · rw [w1 h]
    have := store_build acc ⟨labelBits l n, []⟩ v
    simp only [List.nil_append] at this
    show (_ → (Sl.storeSlice ⟨labelBits l n, []⟩ v >>= fun b' => buildSl acc b' >>= fun c => Except.ok (c, (labelBits l n).length)) = _) ∧
      (_ → ∃ e, (Sl.storeSlice ⟨labelBits l n, []⟩ v >>= fun b' => buildSl acc b' >>= fun c => Except.ok (c, (labelBits l n).length)) = _)
    cases hs : Sl.storeSlice ⟨labelBits l n, []⟩ v with
    | error e =>
      rw [hs] at this
      exact ⟨fun hok => (by cases this.1 hok), fun _ => ⟨e, rfl⟩⟩
    | ok b' =>
      rw [hs] at this
      have this : (_ → buildSl acc b' = _) ∧ (_ → ∃ e, buildSl acc b' = _) := this
      refine ⟨fun hok => ?_, fun hno => ?_⟩
      · show (buildSl acc b' >>= _) = _
        rw [this.1 hok]; rfl
      · obtain ⟨e, he⟩ := this.2 hno
        refine ⟨e, ?_⟩
        show (buildSl acc b' >>= _) = _
        rw [he]; rfl
  · refine ⟨fun hok => absurd ?_ h, fun _ => ?_⟩
    · have := hok.1
      simp only [Cell.bits, List.length_append] at this
      omega
    · obtain ⟨e, he⟩ := w2 h
      rw [he]; exact ⟨e, rfl⟩

/-- The item, taken as a branch of a fork at bit `e`, is the trie `T`. -/
def ItemAs (cmp : Comparator) (acc : Cell → Bool) (n : Nat) (it : MItem) (e : Nat) (T : Trie) : Prop :=
  (T.Good cmp acc → ∃ bo ro, it.branch acc e (n - e - 1) = .ok (T.cell, bo, ro) ∧
    (∀ f, cmp = some f → (asSlice T.cell >>= fun s => s.skip bo ro) = .ok T.ext)) ∧
  (¬ T.Good cmp acc → ∃ err, it.branch acc e (n - e - 1) = .error err)

theorem skip_ext (l : Bits) (n : Nat) (t : Trie) (ro : Nat) (hro : ro = match t with | .leaf .. => 0 | .fork .. => 2) :
    (asSlice (t.relabel l n).cell >>= fun s => s.skip (labelBits l n).length ro) = .ok t.ext := by
  rw [asSlice_cell]
  show Sl.skip _ _ _ = _
  unfold Sl.skip
  cases t with
  | leaf l' e v =>
    subst hro
    rw [if_neg (by simp [Trie.relabel, Trie.cell, Cell.bits])]
    simp [Trie.relabel, Trie.cell, Cell.bits, Cell.refs, Trie.ext]
  | fork l' e x a b =>
    subst hro
    rw [if_neg (by simp [Trie.relabel, Trie.cell, Cell.bits, Cell.refs])]
    simp [Trie.relabel, Trie.cell, Cell.bits, Cell.refs, Trie.ext]

theorem itemAs_leaf (cmp : Comparator) (acc : Cell → Bool) {n : Nat} (hn : n ≤ 1023) (q : Bits) (v : Sl) (p e : Nat) (he : e < q.length) :
    ItemAs cmp acc n (.leaf q v p) e ((Trie.leaf [] [] v).relabel (q.drop (e + 1)) (n - e - 1)) := by
  obtain ⟨h1, h2⟩ := buildLabeled_spec acc (q.drop (e + 1)) (n := n - e - 1) v (by omega)
  have hb : (MItem.leaf q v p).branch acc e (n - e - 1) = (buildLabeled acc (q.drop (e + 1)) (n - e - 1) v >>= fun x => Except.ok (x.1, x.2, 0)) :=
    if_neg (by omega)
  unfold ItemAs
  rw [hb]
  refine ⟨fun h => ?_, fun h => ?_⟩
  · rw [h1 h]
    exact ⟨_, 0, rfl, fun f _ => skip_ext _ _ (.leaf [] [] v) 0 rfl⟩
  · obtain ⟨err, he⟩ := h2 h
    rw [he]; exact ⟨err, rfl⟩

theorem itemAs_node (cmp : Comparator) (acc : Cell → Bool) {n e : Nat} {T : Trie} (hT : T.Good cmp acc) (q : Bits) (off : Nat) (isLeaf : Bool) (p : Nat)
    (ho : ∀ f, cmp = some f → (asSlice T.cell >>= fun s => s.skip off (if isLeaf then 0 else 2)) = .ok T.ext) :
    ItemAs cmp acc n (.node q T.cell (off, isLeaf) p) e T :=
  ⟨fun _ => ⟨off, _, rfl, ho⟩, fun h => absurd hT h⟩

/-- The references and the extra of a fork. -/
theorem mergeNode_spec (cmp : Comparator) (acc : Cell → Bool) (l : Bits) (n : Nat) (A B : Trie) (lo ro : Nat × Nat)
    (hA : ∀ f, cmp = some f → (asSlice A.cell >>= fun s => s.skip lo.1 lo.2) = .ok A.ext)
    (hB : ∀ f, cmp = some f → (asSlice B.cell >>= fun s => s.skip ro.1 ro.2) = .ok B.ext) (h : (labelBits l n).length ≤ 1023) :
    (okCell acc (Trie.joinX cmp l n A B).cell ∧ (∀ f, cmp = some f → ∃ y, f A.ext B.ext = .ok y) →
      (mergeNode cmp ⟨labelBits l n, []⟩ A.cell B.cell lo ro >>= buildSl acc) = .ok (Trie.joinX cmp l n A B).cell) ∧
    (¬ (okCell acc (Trie.joinX cmp l n A B).cell ∧ (∀ f, cmp = some f → ∃ y, f A.ext B.ext = .ok y)) →
      ∃ e, (mergeNode cmp ⟨labelBits l n, []⟩ A.cell B.cell lo ro >>= buildSl acc) = .error e) := by
  cases cmp with
  | none =>
    have hm : mergeNode none ⟨labelBits l n, []⟩ A.cell B.cell lo ro = .ok ⟨labelBits l n, [A.cell, B.cell]⟩ := rfl
    have hc : (Trie.joinX none l n A B).cell = .mk false (labelBits l n) [A.cell, B.cell] := by
      show Cell.mk false (labelBits l n ++ []) _ = _
      rw [List.append_nil]; rfl
    rw [hm, hc]
    show (_ → buildSl acc ⟨labelBits l n, [A.cell, B.cell]⟩ = _) ∧ (_ → ∃ e, buildSl acc ⟨labelBits l n, [A.cell, B.cell]⟩ = _)
    unfold buildSl okCell
    constructor
    · intro h'
      exact if_pos h'.1.2.2
    · intro h'
      exact ⟨_, if_neg fun h3 => h' ⟨⟨h, by simp [Cell.refs], h3⟩, fun f hf => by cases hf⟩⟩
  | some f =>
    have e1 := hA f rfl
    have e2 := hB f rfl
    have hm : mergeNode (some f) ⟨labelBits l n, []⟩ A.cell B.cell lo ro =
        (f A.ext B.ext >>= fun x => Sl.storeSlice ⟨labelBits l n, [A.cell, B.cell]⟩ x) := by
      show ((asSlice A.cell) >>= fun ls => ls.skip lo.1 lo.2 >>= fun ls => asSlice B.cell >>= fun rs => rs.skip ro.1 ro.2 >>= fun rs =>
        f ls rs >>= fun x => Sl.storeSlice ⟨labelBits l n, [A.cell, B.cell]⟩ x) = _
      rw [asSlice_cell] at e1 e2 ⊢
      change Sl.skip _ _ _ = _ at e1
      change Sl.skip _ _ _ = _ at e2
      show (Sl.skip _ _ _ >>= _) = _
      rw [e1]
      show (asSlice B.cell >>= _) = _
      rw [asSlice_cell]
      show (Sl.skip _ _ _ >>= _) = _
      rw [e2]
      rfl
    rw [hm]
    cases hx : f A.ext B.ext with
    | error err =>
      refine ⟨fun ⟨_, h'⟩ => ?_, fun _ => ⟨err, rfl⟩⟩
      obtain ⟨y, hy⟩ := h' f rfl
      rw [hx] at hy; cases hy
    | ok x =>
      have hs := store_build acc ⟨labelBits l n, [A.cell, B.cell]⟩ x
      have hc : (Trie.joinX (some f) l n A B).cell = .mk false (labelBits l n ++ x.bits) ([A.cell, B.cell] ++ x.refs) := by
        have hg : Comparator.get (some f) A.ext B.ext = x := by
          show (match f A.ext B.ext with | .ok x => x | .error _ => .empty) = x
          rw [hx]
        show Cell.mk false (labelBits l n ++ (Comparator.get (some f) A.ext B.ext).bits) (A.cell :: B.cell :: (Comparator.get (some f) A.ext B.ext).refs) = _
        rw [hg]; rfl
      rw [hc]
      exact ⟨fun h' => hs.1 h'.1, fun h' => hs.2 fun hok => h' ⟨hok, fun f' hf' => by injection hf' with hf'; subst hf'; exact ⟨x, hx⟩⟩⟩

/-- Merging two items. -/
theorem merge_spec (cmp : Comparator) (acc : Cell → Bool) {n : Nat} (hn : n ≤ 1023) {left right : MItem} {A B : Trie} {o : Nat}
    (hl : ItemAs cmp acc n left right.prev A) (hr : ItemAs cmp acc n right right.prev B) (ho : o ≤ right.prev) (hs : right.prev < n)
    (hp : o ≤ right.pfx.length) :
    let M := Trie.joinX cmp ((right.pfx.drop o).take (right.prev - o)) (n - o) A B
    (M.Good cmp acc → left.merge cmp acc right o n =
      .ok (.node right.pfx M.cell ((labelBits ((right.pfx.drop o).take (right.prev - o)) (n - o)).length, false) left.prev)) ∧
    (¬ M.Good cmp acc → ∃ e, left.merge cmp acc right o n = .error e) := by
  intro M
  obtain ⟨w1, w2⟩ := writeLabel_empty (l := (right.pfx.drop o).take (right.prev - o)) (n := n - o) (by omega)
  obtain ⟨l1, l2⟩ := hl
  obtain ⟨r1, r2⟩ := hr
  have hmerge : left.merge cmp acc right o n =
      (writeLabel ((right.pfx.drop o).take (right.prev - o)) (n - o) .empty >>= fun b =>
        right.branch acc right.prev (n - right.prev - 1) >>= fun rc =>
        left.branch acc right.prev (n - right.prev - 1) >>= fun lc =>
        (mergeNode cmp b lc.1 rc.1 lc.2 rc.2 >>= fun b' => buildSl acc b' >>= fun c => Except.ok (MItem.node right.pfx c (b.bits.length, false) left.prev))) := by
    unfold MItem.merge
    dsimp only
    rw [if_neg (by omega), if_neg (by omega)]
  rw [hmerge]
  have hG : M.Good cmp acc ↔ ((okCell acc M.cell ∧ (∀ f, cmp = some f → ∃ y, f A.ext B.ext = .ok y)) ∧ A.Good cmp acc ∧ B.Good cmp acc) :=
    ⟨fun h => ⟨⟨h.1, h.2.1⟩, h.2.2⟩, fun h => ⟨h.1.1, h.1.2, h.2⟩⟩
  by_cases hw : (labelBits ((right.pfx.drop o).take (right.prev - o)) (n - o)).length ≤ 1023
  · rw [w1 hw]
    show (_ → (right.branch acc right.prev (n - right.prev - 1) >>= _) = _) ∧ (_ → ∃ e, (right.branch acc right.prev (n - right.prev - 1) >>= _) = _)
    by_cases hB : B.Good cmp acc
    · obtain ⟨bo, ro, hb, hbx⟩ := r1 hB
      rw [hb]
      show (_ → (left.branch acc right.prev (n - right.prev - 1) >>= _) = _) ∧ (_ → ∃ e, (left.branch acc right.prev (n - right.prev - 1) >>= _) = _)
      by_cases hA : A.Good cmp acc
      · obtain ⟨bo', ro', ha, hax⟩ := l1 hA
        rw [ha]
        have hmn := mergeNode_spec cmp acc ((right.pfx.drop o).take (right.prev - o)) (n - o) A B (bo', ro') (bo, ro) hax hbx hw
        show (_ → (mergeNode cmp ⟨_, []⟩ A.cell B.cell (bo', ro') (bo, ro) >>= fun b' => buildSl acc b' >>= fun c => Except.ok (MItem.node right.pfx c (_, false) left.prev)) = _) ∧
          (_ → ∃ e, (mergeNode cmp ⟨_, []⟩ A.cell B.cell (bo', ro') (bo, ro) >>= fun b' => buildSl acc b' >>= fun c => Except.ok (MItem.node right.pfx c (_, false) left.prev)) = _)
        have hassoc : ∀ (x : Except Err Sl) (g : Cell → MItem),
            (x >>= fun b' => buildSl acc b' >>= fun c => Except.ok (g c)) = ((x >>= buildSl acc) >>= fun c => Except.ok (g c)) := by
          intro x g; cases x <;> rfl
        rw [hassoc]
        constructor
        · intro h
          rw [hmn.1 (hG.mp h).1]
          rfl
        · intro h
          obtain ⟨e, he⟩ := hmn.2 (fun h' => h (hG.mpr ⟨h', hA, hB⟩))
          rw [he]; exact ⟨e, rfl⟩
      · obtain ⟨e, he⟩ := l2 hA
        rw [he]
        exact ⟨fun h => absurd (hG.mp h).2.1 hA, fun _ => ⟨e, rfl⟩⟩
    · obtain ⟨e, he⟩ := r2 hB
      rw [he]
      exact ⟨fun h => absurd (hG.mp h).2.2 hB, fun _ => ⟨e, rfl⟩⟩
  · obtain ⟨e, he⟩ := w2 hw
    rw [he]
    refine ⟨fun h => absurd ?_ hw, fun _ => ⟨e, rfl⟩⟩
    have := (hG.mp h).1.1.1
    have hc : M.cell.bits = labelBits ((right.pfx.drop o).take (right.prev - o)) (n - o) ++ (cmp.get A.ext B.ext).bits := rfl
    rw [hc, List.length_append] at this
    omega

/-! ### The stack as a path with left branches -/

/-- Close a path `q` with left branches (`(e, T)`: at bit `e` the branch `T` is on the left), top first, below the
node `R` (a function of where its label starts), so that the label of the result starts at `o`. -/
def closeDown (cmp : Comparator) (n : Nat) (q : Bits) (o : Nat) : List (Nat × Trie) → (Nat → Trie) → Trie
  | [], R => R o
  | (e, T) :: sp, R => closeDown cmp n q o sp (fun o' => Trie.joinX cmp ((q.drop o').take (e - o')) (n - o') T (R (e + 1)))

/-- The items below the top, as left branches. `prev` is what the item above has as its previous common prefix. -/
inductive StackIs (cmp : Comparator) (acc : Cell → Bool) (n : Nat) : Nat → List MItem → List (Nat × Trie) → Prop
  | nil : StackIs cmp acc n 0 [] []
  | cons {it : MItem} {rest : List MItem} {e : Nat} {T : Trie} {sp : List (Nat × Trie)} (hi : ItemAs cmp acc n it e T) (he : e < n)
      (hlt : ∀ p ∈ sp, p.1 < e) (hr : StackIs cmp acc n it.prev rest sp) : StackIs cmp acc n e (it :: rest) ((e, T) :: sp)

/-- The branches above bit `d`, and those below. -/
def above (d : Nat) (sp : List (Nat × Trie)) : List (Nat × Trie) := sp.filter (fun p => d < p.1)
def below (d : Nat) (sp : List (Nat × Trie)) : List (Nat × Trie) := sp.filter (fun p => ¬ d < p.1)

theorem filter_none {d : Nat} {sp : List (Nat × Trie)} (h : ∀ p ∈ sp, p.1 ≤ d) : above d sp = [] ∧ below d sp = sp := by
  constructor
  · exact List.filter_eq_nil_iff.mpr fun p hp => by have := h p hp; simp; omega
  · exact List.filter_eq_self.mpr fun p hp => by have := h p hp; simp; omega

theorem stackIs_cons {cmp : Comparator} {acc : Cell → Bool} {n prev : Nat} {it : MItem} {rest : List MItem} {sp : List (Nat × Trie)}
    (h : StackIs cmp acc n prev (it :: rest) sp) : ∃ T sp', sp = (prev, T) :: sp' ∧ ItemAs cmp acc n it prev T ∧ prev < n ∧ (∀ p ∈ sp', p.1 < prev) ∧
      StackIs cmp acc n it.prev rest sp' := by
  cases h with
  | cons hi he hlt hr => exact ⟨_, _, rfl, hi, he, hlt, hr⟩

theorem stackIs_nil {cmp : Comparator} {acc : Cell → Bool} {n prev : Nat} {sp : List (Nat × Trie)} (h : StackIs cmp acc n prev [] sp) :
    prev = 0 ∧ sp = [] := by
  cases h; exact ⟨rfl, rfl⟩

/-- Where the node at the top is cut when it becomes a branch: at the next left branch above `d`, or at `d`. -/
def cutAt (d : Nat) : List (Nat × Trie) → Nat
  | (e, _) :: _ => max e d
  | [] => d

/-- `reduceGo` closes everything above bit `d` (which must not have a left branch itself). -/
theorem reduceGo_spec (cmp : Comparator) (acc : Cell → Bool) {n : Nat} (hn : n ≤ 1023) (q : Bits) (d : Nat) (hd : d < n) :
    ∀ (rest : List MItem) (sp : List (Nat × Trie)) (right : MItem) (R : Nat → Trie), StackIs cmp acc n right.prev rest sp →
      (right.pfx = q ∨ right.prev ≤ d) → (∀ p ∈ sp, p.1 ≠ d ∧ p.1 < q.length) →
      ItemAs cmp acc n right (cutAt d sp) (R (cutAt d sp + 1)) →
      (∃ right' rest', reduceGo cmp acc n d rest right = .ok (right' :: rest') ∧ ItemAs cmp acc n right' d (closeDown cmp n q (d + 1) (above d sp) R) ∧
        StackIs cmp acc n right'.prev rest' (below d sp)) ∨
      (∃ e, reduceGo cmp acc n d rest right = .error e) ∧ ¬ (closeDown cmp n q (d + 1) (above d sp) R).Good cmp acc := by
  intro rest
  induction rest with
  | nil =>
    intro sp right R hst hq hsp hi
    obtain ⟨h0, rfl⟩ := stackIs_nil hst
    exact Or.inl ⟨right, [], rfl, hi, hst⟩
  | cons left rest ih =>
    intro sp right R hst hq hsp hi
    obtain ⟨T, sp', rfl, hT, hlt, hbelow, hst'⟩ := stackIs_cons hst
    have hne := hsp _ List.mem_cons_self
    by_cases hle : right.prev ≤ d
    · rw [reduceGo, if_pos hle]
      have hall : ∀ p ∈ (right.prev, T) :: sp', p.1 ≤ d := by
        intro p hp
        rcases List.mem_cons.mp hp with h | h
        · rw [h]; exact hle
        · have := hbelow p h; omega
      obtain ⟨f1, f2⟩ := filter_none hall
      rw [f1, f2]
      refine Or.inl ⟨right, left :: rest, rfl, ?_, hst⟩
      have : cutAt d ((right.prev, T) :: sp') = d := by simp only [cutAt]; omega
      rw [this] at hi
      exact hi
    · have hpq : right.pfx = q := by
        rcases hq with h | h
        · exact h
        · exact absurd h hle
      have hcut : cutAt d ((right.prev, T) :: sp') = right.prev := by simp only [cutAt]; omega
      rw [hcut] at hi
      have hf1 : above d ((right.prev, T) :: sp') = (right.prev, T) :: above d sp' := by
        unfold above
        rw [List.filter_cons, if_pos (by simp; omega)]
      have hf2 : below d ((right.prev, T) :: sp') = below d sp' := by
        unfold below
        rw [List.filter_cons, if_neg (by simp; omega)]
      rw [hf1, hf2, reduceGo, if_neg hle]
      -- where the merged node starts
      have ho : max (if rest.isEmpty then 1 else left.prev + 1) (d + 1) = cutAt d sp' + 1 := by
        cases rest with
        | nil =>
          obtain ⟨_, rfl⟩ := stackIs_nil hst'
          simp [cutAt]
        | cons l2 rest2 =>
          obtain ⟨T2, sp2, rfl, _⟩ := stackIs_cons hst'
          simp [cutAt]
      have hcutlt : cutAt d sp' < right.prev := by
        cases sp' with
        | nil => simp only [cutAt]; omega
        | cons p sp2 =>
          have := hbelow p List.mem_cons_self
          obtain ⟨e2, T2⟩ := p
          simp only [cutAt] at *
          omega
      have hm := merge_spec cmp acc hn (o := cutAt d sp' + 1) hT hi (by omega) hlt (by rw [hpq]; have := hne.2; simp only at this; omega)
      rw [hpq] at hm
      dsimp only
      rw [ho]
      let R' : Nat → Trie := fun o' => Trie.joinX cmp ((q.drop o').take (right.prev - o')) (n - o') T (R (right.prev + 1))
      show (∃ right' rest', (left.merge cmp acc right (cutAt d sp' + 1) n >>= fun r => reduceGo cmp acc n d rest r) = .ok (right' :: rest') ∧
        ItemAs cmp acc n right' d (closeDown cmp n q (d + 1) (above d sp') R') ∧ _) ∨
        (∃ e, (left.merge cmp acc right (cutAt d sp' + 1) n >>= fun r => reduceGo cmp acc n d rest r) = .error e) ∧
          ¬ (closeDown cmp n q (d + 1) (above d sp') R').Good cmp acc
      by_cases hG : (R' (cutAt d sp' + 1)).Good cmp acc
      · rw [hm.1 hG]
        refine ih sp' _ R' hst' (Or.inl rfl) (fun p hp => hsp p (List.mem_cons_of_mem _ hp)) ?_
        refine itemAs_node cmp acc hG q _ false _ (fun f _ => ?_)
        exact skip_ext ((q.drop (cutAt d sp' + 1)).take (right.prev - (cutAt d sp' + 1))) (n - (cutAt d sp' + 1)) (R' (cutAt d sp' + 1)) 2 rfl
      · obtain ⟨e, he⟩ := hm.2 hG
        rw [he]
        refine Or.inr ⟨⟨e, rfl⟩, fun hc => hG ?_⟩
        -- a part of the whole
        have part : ∀ (s : List (Nat × Trie)) (R : Nat → Trie), s.Pairwise (fun p p' => p'.1 < p.1) →
            (closeDown cmp n q (d + 1) (above d s) R).Good cmp acc → (R (cutAt d s + 1)).Good cmp acc := by
          intro s
          induction s with
          | nil => intro R _ h; exact h
          | cons p s ihs =>
            intro R hs h
            obtain ⟨e, T⟩ := p
            rw [List.pairwise_cons] at hs
            by_cases hde : d < e
            · have : above d ((e, T) :: s) = (e, T) :: above d s := by
                unfold above; rw [List.filter_cons, if_pos (by simpa using hde)]
              rw [this] at h
              have := ihs _ hs.2 h
              have hc : cutAt d ((e, T) :: s) = e := by simp only [cutAt]; omega
              rw [hc]
              exact this.2.2.2
            · have hall : ∀ p ∈ (e, T) :: s, p.1 ≤ d := by
                intro p hp
                rcases List.mem_cons.mp hp with h | h
                · rw [h]; simp only; omega
                · have := hs.1 p h; simp only at this; omega
              rw [(filter_none hall).1] at h
              have hc : cutAt d ((e, T) :: s) = d := by simp only [cutAt]; omega
              rw [hc]; exact h
        have hpw : ∀ {prev : Nat} {rest : List MItem} {s : List (Nat × Trie)}, StackIs cmp acc n prev rest s → s.Pairwise (fun p p' => p'.1 < p.1) := by
          intro prev rest s h
          induction h with
          | nil => exact List.Pairwise.nil
          | cons hi he hlt hr ih => exact List.Pairwise.cons (fun p hp => hlt p hp) ih
        exact part sp' R' (hpw hst') hc

theorem stackIs_pairwise {cmp : Comparator} {acc : Cell → Bool} {n prev : Nat} {rest : List MItem} {s : List (Nat × Trie)}
    (h : StackIs cmp acc n prev rest s) : s.Pairwise (fun p p' => p'.1 < p.1) ∧ ∀ p ∈ s, p.1 < n := by
  induction h with
  | nil => exact ⟨List.Pairwise.nil, by simp⟩
  | cons hi he hlt hr ih =>
    refine ⟨List.Pairwise.cons (fun p hp => hlt p hp) ih.1, fun p hp => ?_⟩
    rcases List.mem_cons.mp hp with h | h
    · rw [h]; exact he
    · exact ih.2 p h

/-- The parts of a good closed path are good. -/
theorem closeDown_part (cmp : Comparator) (acc : Cell → Bool) (n : Nat) (q : Bits) (o : Nat) : ∀ (sp : List (Nat × Trie)) (R : Nat → Trie),
    (closeDown cmp n q o sp R).Good cmp acc → (∀ p ∈ sp, p.2.Good cmp acc) ∧ (match sp with | [] => R o | (e, _) :: _ => R (e + 1)).Good cmp acc
  | [], R, h => ⟨by simp, h⟩
  | (e, T) :: sp, R, h => by
    obtain ⟨h1, h2⟩ := closeDown_part cmp acc n q o sp _ h
    have hj : T.Good cmp acc ∧ (R (e + 1)).Good cmp acc := by
      cases sp with
      | nil => exact h2.2.2
      | cons p sp => exact h2.2.2
    refine ⟨fun p hp => ?_, hj.2⟩
    rcases List.mem_cons.mp hp with h | h
    · rw [h]; exact hj.1
    · exact h1 p h

/-- `finalize` closes the whole path. -/
theorem finalizeGo_spec (cmp : Comparator) (acc : Cell → Bool) {n : Nat} (hn : n ≤ 1023) (q : Bits) :
    ∀ (rest : List MItem) (sp : List (Nat × Trie)) (right : MItem) (R : Nat → Trie), StackIs cmp acc n right.prev rest sp →
      (right.pfx = q ∨ sp = []) → (∀ p ∈ sp, p.1 < q.length) →
      (match sp with
        | [] => (R 0).Good cmp acc → right.build acc n = .ok (R 0).cell
        | (e, _) :: _ => ItemAs cmp acc n right e (R (e + 1))) →
      (sp = [] → ¬ (R 0).Good cmp acc → ∃ e, right.build acc n = .error e) →
      ((closeDown cmp n q 0 sp R).Good cmp acc → (finalizeGo cmp acc n rest right >>= fun r => r.build acc n) = .ok (closeDown cmp n q 0 sp R).cell) ∧
      (¬ (closeDown cmp n q 0 sp R).Good cmp acc → ∃ e, (finalizeGo cmp acc n rest right >>= fun r => r.build acc n) = .error e) := by
  intro rest
  induction rest with
  | nil =>
    intro sp right R hst hq hsp hi hb
    obtain ⟨h0, rfl⟩ := stackIs_nil hst
    exact ⟨hi, hb rfl⟩
  | cons left rest ih =>
    intro sp right R hst hq hsp hi _
    obtain ⟨T, sp', rfl, hT, hlt, hbelow, hst'⟩ := stackIs_cons hst
    have hpq : right.pfx = q := by
      rcases hq with h | h
      · exact h
      · cases h
    have hql := hsp _ List.mem_cons_self
    rw [finalizeGo]
    let o := match sp' with | [] => 0 | (e, _) :: _ => e + 1
    have ho : (if rest.isEmpty then 0 else left.prev + 1) = o := by
      cases rest with
      | nil =>
        obtain ⟨_, rfl⟩ := stackIs_nil hst'
        rfl
      | cons l2 rest2 =>
        obtain ⟨T2, sp2, rfl, _⟩ := stackIs_cons hst'
        rfl
    have hole : o ≤ right.prev := by
      cases sp' with
      | nil => exact Nat.zero_le _
      | cons p sp2 => exact hbelow p List.mem_cons_self
    have hi : ItemAs cmp acc n right right.prev (R (right.prev + 1)) := hi
    have hm := merge_spec cmp acc hn (o := o) hT hi hole hlt (by rw [hpq]; simp only at hql; omega)
    rw [hpq] at hm
    rw [ho]
    let R' : Nat → Trie := fun o' => Trie.joinX cmp ((q.drop o').take (right.prev - o')) (n - o') T (R (right.prev + 1))
    show ((closeDown cmp n q 0 sp' R').Good cmp acc → ((left.merge cmp acc right o n >>= fun r => finalizeGo cmp acc n rest r) >>= fun r => r.build acc n) = .ok (closeDown cmp n q 0 sp' R').cell) ∧
      (¬ (closeDown cmp n q 0 sp' R').Good cmp acc → ∃ e, ((left.merge cmp acc right o n >>= fun r => finalizeGo cmp acc n rest r) >>= fun r => r.build acc n) = .error e)
    by_cases hG : (R' o).Good cmp acc
    · rw [hm.1 hG]
      have hskip : ∀ f, cmp = some f → (asSlice (R' o).cell >>= fun s => s.skip (labelBits ((q.drop o).take (right.prev - o)) (n - o)).length (if false = true then 0 else 2)) = .ok (R' o).ext :=
        fun f _ => skip_ext ((q.drop o).take (right.prev - o)) (n - o) (R' o) 2 rfl
      refine ih sp' _ R' hst' (Or.inl rfl) (fun p hp => hsp p (List.mem_cons_of_mem _ hp)) ?_ ?_
      · cases sp' with
        | nil => intro _; rfl
        | cons p sp2 =>
          obtain ⟨e2, T2⟩ := p
          exact itemAs_node cmp acc hG q _ false _ hskip
      · intro hnil hng
        subst hnil
        exact absurd hG hng
    · obtain ⟨e, he⟩ := hm.2 hG
      rw [he]
      refine ⟨fun hc => absurd ?_ hG, fun _ => ⟨e, rfl⟩⟩
      have := (closeDown_part cmp acc n q 0 sp' R' hc).2
      cases sp' with
      | nil => exact this
      | cons p sp2 => exact this

end Verif
