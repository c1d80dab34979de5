import Verif.BocRound2
/-!
# C15, C17–C20: writing bags of cells and reading them again

`writerOf withoutHashes crc rs` is the program that makes a `BocHeader`, sets its options and adds the roots `rs`.
`Below rs c`: the cell `c` is a root or below a root. `Clash H rs`: there are two different cells below the roots with
different representations and the same hash; with SHA-256 nobody knows such cells.
-/
set_option linter.unusedVariables false
set_option linter.unusedSimpArgs false
namespace Verif
namespace Boc

/-! ### Counting -/

theorem nodup_length {α : Type} [DecidableEq α] : ∀ (a b : List α), a.Nodup → (∀ x ∈ a, x ∈ b) → a.length ≤ b.length
  | [], b, _, _ => Nat.zero_le _
  | x :: a, b, hn, hs => by
    obtain ⟨h1, h2⟩ := List.nodup_cons.mp hn
    have hx := hs x List.mem_cons_self
    have := nodup_length a (b.erase x) h2 fun y hy =>
      (List.mem_erase_of_ne (fun e => h1 (by rw [← e]; exact hy))).mpr (hs y (List.mem_cons_of_mem _ hy))
    rw [List.length_erase_of_mem hx] at this
    have hpos : 0 < b.length := List.length_pos_of_mem hx
    rw [List.length_cons]; omega

/-- There are at most `n` different hashes of cells below the roots. -/
def AtMost (rs : List CCell) (n : Nat) : Prop := ∃ L : List Hash, L.length ≤ n ∧ ∀ c, Below rs c → c.reprHash ∈ L

/-- There are at least `n` different hashes of cells below the roots. -/
def AtLeast (rs : List CCell) (n : Nat) : Prop := ∃ L : List Hash, n ≤ L.length ∧ L.Nodup ∧ ∀ h ∈ L, ∃ c, Below rs c ∧ c.reprHash = h

/-! ### C17 -/

/-- The hash of a built cell depends on its tree only. -/
theorem reprHash_tree {H : Hasher} {a b : CCell} (ha : Built H a) (hb : Built H b) (h : a.tree = b.tree) : a.reprHash = b.reprHash := by
  have h1 := ha.facts.agrees.hash 3
  have h2 := hb.facts.agrees.hash 3
  unfold CCell.reprHash
  rw [h1, h2, h]

theorem Rooted.found {H : Hasher} {rs : List CCell} {w : Writer} (h : Rooted H (Below rs) w rs) (ha : Writer.Apart H (Below rs)) {c : CCell} (hc : Below rs c) :
    ∃ x ∈ w.cells, x.reprHash = c.reprHash := by
  obtain ⟨r, hr, s⟩ := hc
  have hroot : ∃ x ∈ w.cells, x.reprHash = r.reprHash := by
    obtain ⟨i, hi⟩ := List.mem_iff_getElem?.mp hr
    have hlt : i < w.roots.length := by rw [h.roots]; exact (List.getElem?_eq_some_iff.mp hi).1
    obtain ⟨y, x, e1, e2, e3⟩ := h.root i _ (List.getElem?_eq_getElem hlt)
    rw [hi] at e1
    injection e1 with e1
    exact ⟨x, List.mem_of_getElem? e2, by rw [e3, e1]⟩
  have aux : ∀ {a r : CCell}, CCell.Sub a r → Below rs r → (∃ x ∈ w.cells, x.reprHash = r.reprHash) → ∃ x ∈ w.cells, x.reprHash = a.reprHash := by
    intro a r s
    induction s with
    | refl => exact fun _ h => h
    | @child r' c' hr' s ih =>
      intro hb hx
      obtain ⟨x, x1, x2⟩ := hx
      apply ih (ha.child hb hr')
      have ht : x.tree = c'.tree := ha.inj (h.mem x x1) hb x2
      have hmem : r'.tree ∈ x.tree.refs := by
        rw [ht, CCell.tree_refs]; exact List.mem_map.mpr ⟨r', hr', rfl⟩
      rw [CCell.tree_refs] at hmem
      obtain ⟨y, y1, y2⟩ := List.mem_map.mp hmem
      obtain ⟨i, hi⟩ := List.mem_iff_getElem?.mp x1
      obtain ⟨j, _, hj⟩ := h.inv.closed hi y y1
      obtain ⟨z, z1, z2⟩ := h.inv.idx hj
      exact ⟨z, List.mem_of_getElem? z1, by
        rw [z2]; exact reprHash_tree (ha.built (ha.child (h.mem x x1) y1)) (ha.built (ha.child hb hr')) y2⟩
  exact aux s ⟨r, hr, .refl _⟩ hroot

theorem Inv_nodup {w : Writer} (h : w.Inv) : (w.cells.map CCell.reprHash).Nodup := by
  unfold List.Nodup
  rw [List.pairwise_iff_getElem]
  intro i j hi hj hij he
  rw [List.length_map] at hi hj
  simp only [List.getElem_map] at he
  have h1 := h.has (List.getElem?_eq_getElem hi)
  have h2 := h.has (List.getElem?_eq_getElem hj)
  rw [he, h2] at h1
  injection h1 with h1
  omega

theorem flatMap_same {α β : Type} {f g : α → List β} : ∀ (l : List α), (∀ a ∈ l, f a = g a) → l.flatMap f = l.flatMap g
  | [], _ => rfl
  | a :: l, h => by
    rw [List.flatMap_cons, List.flatMap_cons, h a List.mem_cons_self, flatMap_same l fun x hx => h x (List.mem_cons_of_mem _ hx)]

/-- The number written for a reference. -/
def refIndex (w : Writer) (r : CCell) : Nat := match w.find r.reprHash with
  | some i => w.count - i - 1
  | none => 0

theorem refIndex_eq {w : Writer} {r : CCell} {j : Nat} (h : w.find r.reprHash = some j) : refIndex w r = w.count - j - 1 := by
  unfold refIndex; rw [h]

theorem count_le {H : Hasher} {rs : List CCell} {w : Writer} (h : Rooted H (Below rs) w rs) {n : Nat} (hn : AtMost rs n) : w.count ≤ n := by
  obtain ⟨L, l1, l2⟩ := hn
  have := nodup_length _ L (Inv_nodup h.inv) fun x hx => by
    obtain ⟨c, hc, rfl⟩ := List.mem_map.mp hx
    exact l2 c (h.mem c hc)
  rw [List.length_map] at this
  show w.cells.length ≤ n
  omega

theorem count_ge {H : Hasher} {rs : List CCell} {w : Writer} (h : Rooted H (Below rs) w rs) (ha : Writer.Apart H (Below rs)) {n : Nat} (hn : AtLeast rs n) : n ≤ w.count := by
  obtain ⟨L, l1, l2, l3⟩ := hn
  have := nodup_length L (w.cells.map CCell.reprHash) l2 fun x hx => by
    obtain ⟨c, hc, e⟩ := l3 x hx
    obtain ⟨y, y1, y2⟩ := h.found ha hc
    exact List.mem_map.mpr ⟨y, y1, by rw [y2, e]⟩
  rw [List.length_map] at this
  show n ≤ w.cells.length
  omega

/-- C17: the cells of the file, in the order in which they are written. Every cell below the roots is listed exactly once
(by hash). The number written for a reference is the position of a cell with the same contents, later in the file; the
numbers written for the roots are the positions of the roots. -/
theorem C17_order (H : Hasher) {rs : List CCell} (hb : ∀ r ∈ rs, Built H r) (wh crc : Bool) : Clash H rs ∨
    let w := writerOf wh crc rs
    let file := w.cells.reverse
    w.cellsBytes w.stats.refSize w.cells = file.flatMap (w.cellBytes w.stats.refSize) ∧
    (file.map CCell.reprHash).Nodup ∧
    (∀ h, h ∈ file.map CCell.reprHash ↔ ∃ c, Below rs c ∧ c.reprHash = h) ∧
    (∀ (i : Nat) (c : CCell), file[i]? = some c → ∃ idx : List Nat, idx.length = c.refs.length ∧
      w.cellBytes w.stats.refSize c = [(w.descOf c).d1, (w.descOf c).d2] ++ hashBytes (w.descOf c) c ++ c.data ++ idx.flatMap (beBytes w.stats.refSize) ∧
      ∀ (k j : Nat), idx[k]? = some j → ∃ r x, c.refs[k]? = some r ∧ i < j ∧ file[j]? = some x ∧ x.tree = r.tree) ∧
    (w.roots.map fun r => w.count - r - 1).map (fun j => (file[j]?).map CCell.tree) = rs.map fun c => some c.tree := by
  by_cases hc : Clash H rs
  · exact .inl hc
  right
  intro w file
  have ha := below_apart hb hc
  obtain ⟨hr, _, _⟩ := writerOf_rooted hb hc wh crc
  have hrev : ∀ j : Nat, j < w.count → file[w.count - j - 1]? = w.cells[j]? := by
    intro j hj
    have h1 : w.count = w.cells.length := rfl
    show w.cells.reverse[w.count - j - 1]? = _
    rw [List.getElem?_reverse (by omega)]
    congr 1; omega
  refine ⟨rfl, ?_, ?_, ?_, ?_⟩
  · show (w.cells.reverse.map _).Nodup
    rw [List.map_reverse]
    exact List.pairwise_reverse.mpr ((Inv_nodup hr.inv).imp fun h e => h e.symm)
  · intro h
    constructor
    · intro hm
      obtain ⟨c, c1, c2⟩ := List.mem_map.mp hm
      exact ⟨c, hr.mem c (List.mem_reverse.mp c1), c2⟩
    · rintro ⟨c, c1, c2⟩
      obtain ⟨x, x1, x2⟩ := hr.found ha c1
      exact List.mem_map.mpr ⟨x, List.mem_reverse.mpr x1, by rw [x2, c2]⟩
  · intro i c hi
    have hlt : i < w.cells.length := by
      have := (List.getElem?_eq_some_iff.mp hi).1
      rw [List.length_reverse] at this; exact this
    have hi' : w.cells[w.cells.length - 1 - i]? = some c := by
      rw [← List.getElem?_reverse hlt]; exact hi
    refine ⟨c.refs.map (refIndex w), by simp, ?_, ?_⟩
    · unfold Writer.cellBytes
      congr 1
      rw [List.flatMap_map]
      apply flatMap_same
      intro r hm
      obtain ⟨j, _, hj⟩ := hr.inv.closed hi' r hm
      rw [refIndex_eq hj]
      have hj : w.find r.reprHash = some j := hj
      rw [hj]
    · intro k j hk
      rw [List.getElem?_map] at hk
      cases hrk : c.refs[k]? with
      | none => rw [hrk] at hk; cases hk
      | some r =>
        rw [hrk] at hk
        injection hk with hk
        have hm := List.mem_of_getElem? hrk
        obtain ⟨p, p1, p2⟩ := hr.inv.closed hi' r hm
        have hk : w.count - p - 1 = j := (refIndex_eq p2).symm.trans hk
        obtain ⟨x, x1, x2⟩ := hr.inv.idx p2
        have hp : p < w.count := (List.getElem?_eq_some_iff.mp x1).1
        refine ⟨r, x, rfl, by rw [← hk]; show i < w.cells.length - p - 1; omega, by rw [← hk, hrev p hp]; exact x1, ?_⟩
        exact ha.inj (hr.mem x (List.mem_of_getElem? x1)) (ha.child (hr.mem c (List.mem_of_getElem? hi')) hm) x2
  · rw [← hr.root_trees ha, List.map_map]
    apply List.map_congr_left
    intro r hm
    obtain ⟨i, hi⟩ := List.mem_iff_getElem?.mp hm
    obtain ⟨_, x, _, hx, _⟩ := hr.root i r hi
    show (file[w.count - r - 1]?).map _ = _
    rw [hrev r (List.getElem?_eq_some_iff.mp hx).1]

/-- C17: the traversal with a stack, which the code uses for deep trees, gives the same list as the recursive one. -/
theorem C17_deep (w : Writer) (c : CCell) : w.fillDeep c = w.fillRec c := Writer.fillDeep_eq w c

/-! ### C20, C15 -/

theorem ready_of {H : Hasher} {rs : List CCell} (hb : ∀ r ∈ rs, Built H r) (hn : ∀ c, Below rs c → Normal c) (hne : rs ≠ []) (wh crc : Bool)
    (hmax : AtMost rs (2 ^ 32 - 1)) (hroots : AtLeast rs rs.length) (hc : ¬ Clash H rs) : Ready H (writerOf wh crc rs) := by
  have ha := below_apart hb hc
  obtain ⟨hr, _, _⟩ := writerOf_rooted hb hc wh crc
  refine hr.ready ha hn hne ?_ (count_ge hr ha hroots)
  have := count_le hr hmax
  omega

/-- C20: a bag with several roots. All roots come back, in the same order, with the same contents (hence, by C11, with the
same hashes and depths at all levels), for all options of the writer.
The limits: `2^32 - 1` different cells (the counts are 32-bit numbers in the file), the reader's own limits for the number
of roots, and at least as many different cells as roots (see `C20_duplicate_roots`). -/
theorem C20_roundtrip_partial (H : Hasher) {rs : List CCell} (hb : ∀ r ∈ rs, Built H r) (hn : ∀ c, Below rs c → Normal c) (hne : rs ≠ []) (wh crc : Bool)
    (opts : Options) (h1 : opts.minRoots.getD 0 ≤ rs.length) (h2 : rs.length ≤ opts.maxRoots.getD 32) (hmax : AtMost rs (2 ^ 32 - 1))
    (hroots : AtLeast rs rs.length) :
    Clash H rs ∨ ∃ cs, decodeAll H opts (writerOf wh crc rs).encode = .ok cs ∧ cs.map CCell.tree = rs.map CCell.tree ∧ ∀ c ∈ cs, Built H c := by
  by_cases hc : Clash H rs
  · exact .inl hc
  right
  have ha := below_apart hb hc
  obtain ⟨hr, _, _⟩ := writerOf_rooted hb hc wh crc
  have hready := ready_of hb hn hne wh crc hmax hroots hc
  generalize hw : writerOf wh crc rs = w at hr hready
  have hd := hready.decodeRest_encode (opts := opts) (by rw [hr.roots]; exact h1) (by rw [hr.roots]; exact h2)
  obtain ⟨out, o1, o2, o3, o4⟩ := hready.finalize_same
  obtain ⟨cs, c1, c2, c3⟩ := getAll_roots o3 w.roots hready.root_lt
  refine ⟨cs, ?_, ?_, fun c hc => o2 c (c2 c hc)⟩
  · unfold decodeAll decodeHeader
    rw [hd]
    simp only [bok]
    rw [o1]
    simp only [bok]
    exact c1
  · rw [hr.root_trees ha] at c3
    have := congrArg (List.map fun o : Option Cell => o.getD (.mk false [] [])) c3
    simpa [List.map_map, Function.comp_def] using this

theorem plain_trees {H : Hasher} : ∀ {xs ys : List CCell}, xs.map CCell.tree = ys.map CCell.tree → (∀ x ∈ xs, Built H x ∧ Plain x) → (∀ y ∈ ys, Built H y ∧ Plain y) → xs = ys
  | [], [], _, _, _ => rfl
  | [], _ :: _, h, _, _ => by cases h
  | _ :: _, [], h, _, _ => by cases h
  | x :: xs, y :: ys, h, h1, h2 => by
    injection h with e1 e2
    obtain ⟨b1, p1⟩ := h1 x List.mem_cons_self
    obtain ⟨b2, p2⟩ := h2 y List.mem_cons_self
    rw [built_ext _ b1 b2 e1 rfl p1 p2, plain_trees e2 (fun z hz => h1 z (List.mem_cons_of_mem _ hz)) fun z hz => h2 z (List.mem_cons_of_mem _ hz)]

/-- The cells that the reader makes from a written bag: one for each cell of the file, with the same contents, and with the
descriptor that was written. -/
theorem read_cells {H : Hasher} {rs : List CCell} (hb : ∀ r ∈ rs, Built H r) (hn : ∀ c, Below rs c → Normal c) (hne : rs ≠ []) (wh crc : Bool)
    (opts : Options) (h1 : opts.minRoots.getD 0 ≤ rs.length) (h2 : rs.length ≤ opts.maxRoots.getD 32) (hmax : AtMost rs (2 ^ 32 - 1))
    (hroots : AtLeast rs rs.length) (hc : ¬ Clash H rs) :
    let w := writerOf wh crc rs
    ∃ h out, decodeRest w.encode opts = .ok (h, []) ∧ h.finalize H = .ok out ∧ h.roots = (w.roots.map fun r => w.count - r - 1) ∧
      (∀ x ∈ out, Built H x) ∧ (∀ x ∈ out, ∀ a, CCell.Sub a x → a ∈ out) ∧
      out.map CCell.tree = w.cells.map CCell.tree ∧ out.map CCell.desc = w.cells.map w.descOf ∧
      ∃ cs, getAll out h.roots = .ok cs ∧ (∀ c ∈ cs, c ∈ out) ∧ cs.map CCell.tree = rs.map CCell.tree := by
  intro w
  have ha := below_apart hb hc
  obtain ⟨hr, _, _⟩ := writerOf_rooted hb hc wh crc
  have hready : Ready H w := ready_of hb hn hne wh crc hmax hroots hc
  have hd := hready.decodeRest_encode (opts := opts) (by rw [hr.roots]; exact h1) (by rw [hr.roots]; exact h2)
  obtain ⟨out, o1, o2, o3, o4⟩ := hready.finalize_same
  obtain ⟨cs, c1, c2, c3⟩ := getAll_roots o3 w.roots hready.root_lt
  refine ⟨_, out, hd, o1, rfl, o2, ?_, o3, o4, cs, c1, c2, ?_⟩
  · have hcl := (finalize_cells (decodeRest_ok hd) o1).2
    intro x hx a s
    induction s with
    | refl => exact hx
    | @child r' c' hr' s ih =>
      apply ih
      obtain ⟨i, hi⟩ := List.mem_iff_getElem?.mp hx
      obtain ⟨j, _, hj⟩ := (hcl i _ hi).2.2 _ hr'
      exact List.mem_of_getElem? hj
  · rw [hr.root_trees ha] at c3
    have := congrArg (List.map fun o : Option Cell => o.getD (.mk false [] [])) c3
    simpa [List.map_map, Function.comp_def] using this

theorem below_plain {H : Hasher} {rs : List CCell} (hb : ∀ r ∈ rs, Built H r ∧ Plain r) : ∀ c, Below rs c → Normal c := by
  rintro c ⟨r, hr, s⟩
  exact Plain.normal ((hb r hr).1.sub s) ((hb r hr).2.sub s)

theorem read_roots {H : Hasher} {rs : List CCell} (hb : ∀ r ∈ rs, Built H r ∧ Plain r) (hne : rs ≠ []) (wh crc : Bool)
    (opts : Options) (h1 : opts.minRoots.getD 0 ≤ rs.length) (h2 : rs.length ≤ opts.maxRoots.getD 32) (hmax : AtMost rs (2 ^ 32 - 1))
    (hroots : AtLeast rs rs.length) (hc : ¬ Clash H rs) :
    ∃ h out, decodeRest (writerOf wh crc rs).encode opts = .ok (h, []) ∧ h.finalize H = .ok out ∧ getAll out h.roots = .ok rs := by
  have hb' := fun r hr => (hb r hr).1
  obtain ⟨hr, _, _⟩ := writerOf_rooted hb' hc wh crc
  obtain ⟨h, out, r1, r2, r3, r4, r5, r6, r7, cs, r8, r9, r10⟩ := read_cells hb' (below_plain hb) hne wh crc opts h1 h2 hmax hroots hc
  have hflag : ∀ x ∈ out, x.desc.storeHashes = false := by
    intro x hx
    have : x.desc ∈ out.map CCell.desc := List.mem_map.mpr ⟨x, hx, rfl⟩
    rw [r7] at this
    obtain ⟨c, c1, c2⟩ := List.mem_map.mp this
    obtain ⟨r, hr', s⟩ := hr.mem c c1
    rw [← c2, (descOf_facts _ c).2.2.2.2, (hb r hr').2 c s]
    simp
  have hcs : cs = rs := plain_trees (H := H) r10 (fun x hx => ⟨r4 x (r9 x hx), fun a s => hflag a (r5 x (r9 x hx) a s)⟩) hb
  exact ⟨h, out, r1, r2, by rw [r8, hcs]⟩

/-- C20 for cells without stored hashes: the roots come back unchanged in all their parts. -/
theorem C20_exact_partial (H : Hasher) {rs : List CCell} (hb : ∀ r ∈ rs, Built H r ∧ Plain r) (hne : rs ≠ []) (wh crc : Bool)
    (opts : Options) (h1 : opts.minRoots.getD 0 ≤ rs.length) (h2 : rs.length ≤ opts.maxRoots.getD 32) (hmax : AtMost rs (2 ^ 32 - 1))
    (hroots : AtLeast rs rs.length) :
    Clash H rs ∨ decodeAll H opts (writerOf wh crc rs).encode = .ok rs := by
  by_cases hc : Clash H rs
  · exact .inl hc
  right
  obtain ⟨h, out, r1, r2, r3⟩ := read_roots hb hne wh crc opts h1 h2 hmax hroots hc
  unfold decodeAll decodeHeader
  rw [r1]
  simp only [bok]
  rw [r2]
  exact r3

theorem atLeast_one (c : CCell) : AtLeast [c] [c].length :=
  ⟨[c.reprHash], Nat.le_refl _, by simp, by
    intro h hm
    rw [List.mem_singleton] at hm
    exact ⟨c, ⟨c, by simp, .refl _⟩, hm.symm⟩⟩

theorem getAll_cons {out : List CCell} {r : Nat} {rs : List Nat} {cs : List CCell} (h : getAll out (r :: rs) = .ok cs) :
    ∃ c cs', getCell out r = .ok (some c) ∧ getAll out rs = .ok cs' ∧ cs = c :: cs' := by
  rw [getAll] at h
  obtain ⟨o, h1, h⟩ := bind_inv h
  cases o with
  | none => cases h
  | some c =>
    obtain ⟨cs', h2, h⟩ := bind_inv h
    injection h with h
    exact ⟨c, cs', h1, h2, h.symm⟩

theorem getAll_nil {out : List CCell} {rs : List Nat} (h : getAll out rs = .ok []) : rs = [] := by
  cases rs with
  | nil => rfl
  | cons r rs =>
    obtain ⟨_, _, _, _, e⟩ := getAll_cons h
    cases e

/-- C15: `Boc::decode` gives back the root that was encoded, for all options of the writer. The cell has no stored hashes
(cells made by builders: `C15_builder`); for other cells see `C19_roundtrip`. -/
theorem C15_roundtrip (H : Hasher) {c : CCell} (hb : Built H c) (hp : Plain c) (wh crc : Bool) (hmax : AtMost [c] (2 ^ 32 - 1)) :
    Collision H c.tree c.tree ∨ decode H (writerOf wh crc [c]).encode = .ok c := by
  by_cases hc : Clash H [c]
  · obtain ⟨a, ha, b, hb, h⟩ := hc
    rw [List.mem_singleton.mp ha, List.mem_singleton.mp hb] at h
    exact .inl h
  right
  obtain ⟨h, out, r1, r2, r3⟩ := read_roots (rs := [c]) (fun r hr => by rw [List.mem_singleton.mp hr]; exact ⟨hb, hp⟩) (by simp) wh crc ⟨some 1, some 1⟩
    (by simp) (by simp) hmax (atLeast_one c) hc
  unfold decode decodeHeader
  rw [r1]
  simp only [bok]
  cases hro : h.roots with
  | nil => rw [hro] at r3; cases r3
  | cons r rs =>
    rw [hro] at r3
    obtain ⟨x, xs, e1, e2, e3⟩ := getAll_cons r3
    injection e3 with e3 e4
    dsimp only
    rw [r2]
    simp only [bok]
    rw [e1, e3]
    rfl

theorem writer_default {H : Hasher} {rs : List CCell} (hb : ∀ r ∈ rs, Built H r) (hc : ¬ Clash H rs) : rs.foldl Writer.addRoot Writer.new = writerOf false false rs := by
  obtain ⟨_, _, c⟩ := Rooted.addAll (below_apart hb hc) rs (Rooted.new H (Below rs) false) fun c h => ⟨c, h, .refl _⟩
  have e : Writer.new.setWithoutHashes false = Writer.new := rfl
  rw [e] at c
  have c : (rs.foldl Writer.addRoot Writer.new).crc = false := c
  unfold writerOf
  rw [e]
  generalize rs.foldl Writer.addRoot Writer.new = w at c
  cases w
  simp only at c
  rw [c]
  rfl

/-- C15 for `Boc::encode` and `Boc::decode`. -/
theorem C15_encode (H : Hasher) {c : CCell} (hb : Built H c) (hp : Plain c) (hmax : AtMost [c] (2 ^ 32 - 1)) :
    Collision H c.tree c.tree ∨ decode H (encode c) = .ok c := by
  by_cases hc : Clash H [c]
  · obtain ⟨a, ha, b, hb, h⟩ := hc
    rw [List.mem_singleton.mp ha, List.mem_singleton.mp hb] at h
    exact .inl h
  · have e : encode c = (([c] : List CCell).foldl Writer.addRoot Writer.new).encode := rfl
    rw [e, writer_default (fun r hr => by rw [List.mem_singleton.mp hr]; exact hb) hc]
    exact C15_roundtrip H hb hp false false hmax

/-- C20 for `Boc::encode_pair` and `Boc::decode_pair`: two roots with different hashes. -/
theorem C20_pair (H : Hasher) {a b : CCell} (ha : Built H a ∧ Plain a) (hb : Built H b ∧ Plain b) (hne : a.reprHash ≠ b.reprHash)
    (hmax : AtMost [a, b] (2 ^ 32 - 1)) : Clash H [a, b] ∨ decodePair H (encodePair a b) = .ok (a, b) := by
  by_cases hc : Clash H [a, b]
  · exact .inl hc
  right
  have hall : ∀ r ∈ [a, b], Built H r ∧ Plain r := by
    intro r hr
    rcases List.mem_cons.mp hr with rfl | hr
    · exact ha
    · rw [List.mem_singleton.mp hr]; exact hb
  have hleast : AtLeast [a, b] [a, b].length := by
    refine ⟨[a.reprHash, b.reprHash], Nat.le_refl _, by simpa using hne, ?_⟩
    intro h hm
    rcases List.mem_cons.mp hm with rfl | hm
    · exact ⟨a, ⟨a, by simp, .refl _⟩, rfl⟩
    · rw [List.mem_singleton.mp hm]
      exact ⟨b, ⟨b, by simp, .refl _⟩, rfl⟩
  obtain ⟨h, out, r1, r2, r3⟩ := read_roots hall (by simp) false false ⟨some 2, some 2⟩ (by simp) (by simp) hmax hleast hc
  have henc : encodePair a b = (writerOf false false [a, b]).encode := by
    rw [← writer_default (fun r hr => (hall r hr).1) hc]; rfl
  unfold decodePair decodeHeader
  rw [henc, r1]
  simp only [bok]
  match hro : h.roots with
  | [] => rw [hro] at r3; cases r3
  | [r] =>
    rw [hro] at r3
    obtain ⟨x, xs, e1, e2, e3⟩ := getAll_cons r3
    injection e2 with e2
    rw [← e2] at e3
    cases e3
  | p :: q :: rest =>
    rw [hro] at r3
    obtain ⟨x, xs, e1, e2, e3⟩ := getAll_cons r3
    obtain ⟨y, ys, f1, f2, f3⟩ := getAll_cons e2
    injection e3 with e3 e4
    rw [f3] at e4
    injection e4 with e4 e5
    dsimp only
    rw [r2]
    simp only [bok]
    rw [e1]
    simp only [bok]
    rw [f1]
    simp only [bok]
    rw [e3, e4]

/-- C15: the reader uses all bytes of the bag, ignores any bytes after it, and rejects the bag when bytes are missing at the
end. -/
theorem C15_bytes (H : Hasher) {rs : List CCell} (hb : ∀ r ∈ rs, Built H r) (hn : ∀ c, Below rs c → Normal c) (hne : rs ≠ []) (wh crc : Bool)
    (opts : Options) (h1 : opts.minRoots.getD 0 ≤ rs.length) (h2 : rs.length ≤ opts.maxRoots.getD 32) (hmax : AtMost rs (2 ^ 32 - 1))
    (hroots : AtLeast rs rs.length) :
    Clash H rs ∨
    (∃ h, ∀ extra, decodeRest ((writerOf wh crc rs).encode ++ extra) opts = .ok (h, extra)) ∧
    (∀ data missing, data ++ missing = (writerOf wh crc rs).encode → missing ≠ [] → ∀ h, decodeHeader data opts ≠ .ok h) := by
  by_cases hc : Clash H rs
  · exact .inl hc
  right
  obtain ⟨h, out, r1, _⟩ := read_cells hb hn hne wh crc opts h1 h2 hmax hroots hc
  refine ⟨⟨h, fun extra => decodeRest_mono r1 extra⟩, ?_⟩
  intro data missing e hm h' hd
  obtain ⟨rest, hr⟩ := decodeHeader_inv hd
  have := decodeRest_mono hr missing
  rw [e, r1] at this
  injection this with this
  injection this with _ this
  exact hm (List.append_eq_nil_iff.mp this.symm).2

/-- Builders make cells without stored hashes from such cells. -/
theorem C15_builder (H : Hasher) {b : CellB CCell} (hb : b.WF) (hr : ∀ r ∈ b.refs, Built H r ∧ Plain r) {c : CCell} (hc : b.build H = .ok c) :
    Built H c ∧ Plain c := by
  have hbuilt : Built H c := .mk (CellB.parts_ok hb) (fun r h => (hr r h).1) hc
  refine ⟨hbuilt, ?_⟩
  obtain ⟨hs, e⟩ := finalize_fields hc
  intro a s
  cases s with
  | refl =>
    rw [e]
    show (CellDescriptor.mk (CellDescriptor.computeD1 b.levelMask b.exotic b.refs.length) _).storeHashes = false
    have hlt : b.refs.length < 8 := by
      have : b.refs.length ≤ 4 := (CellB.parts_ok hb).refs_le
      omega
    have key : ∀ (m : Fin 8) (n : Fin 8) (x : Bool), (((BitVec.ofNat 8 m : BitVec 8) <<< 5) ||| ((if x then 1#8 else 0#8) <<< 3) ||| (BitVec.ofNat 8 n &&& 7)) &&& 0x10#8 = 0 := by
      decide +kernel
    have hm : b.levelMask.toNat < 8 := by
      have h1 := (CellB.parts_desc hb).1
      rw [← h1]
      exact CellDescriptor.levelMask_lt _
    have := key ⟨b.levelMask.toNat, hm⟩ ⟨b.refs.length, hlt⟩ b.exotic
    simp only [BitVec.ofNat_toNat, BitVec.setWidth_eq] at this
    exact congrArg (· != 0) this
  | child h s =>
    rw [e] at h
    exact (hr _ h).2 a s

/-! ### C18 -/

theorem header_length {H : Hasher} {rs : List CCell} {w : Writer} (h : Rooted H (Below rs) w rs) :
    w.header.length = 4 + 2 + w.stats.refSize * (3 + w.roots.length) + w.stats.offsetSize := by
  unfold Writer.header
  have hl : (w.roots.flatMap fun r => beBytes w.stats.refSize (w.count - r - 1)).length = w.roots.length * w.stats.refSize :=
    flatMap_length _ fun _ _ => beBytes_length _ _
  simp only [List.length_append, beBytes_length, hl, List.length_cons, List.length_nil]
  rw [Nat.mul_add, Nat.mul_comm w.roots.length]
  omega

/-- C18: `compute_stats` gives the exact size of the encoded bytes, and the written size of the cells is right, for all
options. The option `without_hashes` is set before the roots are added; see `C18_late`. -/
theorem C18_stats_partial (H : Hasher) {rs : List CCell} (hb : ∀ r ∈ rs, Built H r) (hn : ∀ c, Below rs c → Normal c) (wh crc : Bool) :
    Clash H rs ∨
    (writerOf wh crc rs).encode.length = (writerOf wh crc rs).stats.totalSize ∧
    ((writerOf wh crc rs).cellsBytes (writerOf wh crc rs).stats.refSize (writerOf wh crc rs).cells).length = (writerOf wh crc rs).stats.totalCellsSize := by
  by_cases hc : Clash H rs
  · exact .inl hc
  right
  have ha := below_apart hb hc
  obtain ⟨hr, _, hcrc⟩ := writerOf_rooted hb hc wh crc
  generalize writerOf wh crc rs = w at hr hcrc ⊢
  have hbody := (hr.filled ha hn).body_length.1
  refine ⟨?_, hbody⟩
  have henc : w.encode = w.header ++ w.cellsBytes w.stats.refSize w.cells ++ if w.crc then leBytes (crc32c (w.header ++ w.cellsBytes w.stats.refSize w.cells)) else [] := rfl
  have htot : w.stats.totalSize = 4 + 2 + w.stats.refSize * (3 + w.roots.length) + w.stats.offsetSize + w.stats.totalCellsSize + (if w.crc then 4 else 0) := rfl
  have htail : (if w.crc then leBytes (crc32c (w.header ++ w.cellsBytes w.stats.refSize w.cells)) else []).length = if w.crc then 4 else 0 := by
    split <;> rfl
  rw [henc, htot, List.length_append, List.length_append, header_length hr, hbody, htail]

/-- C18: writing in chunks gives the same bytes as writing at once, for every size of the chunks and all roots and options. -/
theorem C18_chunks (w : Writer) (k : Nat) (hk : 0 < k) : (w.encodeToWriter k).1 = w.encode := by
  unfold Writer.encodeToWriter Writer.encode
  dsimp only
  rw [crc_chunks, List.flatten_cons, rchunks_flatten w _ k hk _ _ (Nat.le_refl _)]
  rfl

/-- C18: the assertion at the end of the writing in chunks (checked in debug builds only) fails exactly when the checksum is
switched on: the four bytes of the checksum are not counted. -/
theorem C18_chunks_assert (H : Hasher) {rs : List CCell} (hb : ∀ r ∈ rs, Built H r) (hn : ∀ c, Below rs c → Normal c) (wh crc : Bool) (k : Nat) (hk : 0 < k) :
    Clash H rs ∨ ((writerOf wh crc rs).encodeToWriter k).2 = !crc := by
  rcases C18_stats_partial H hb hn wh crc with h | ⟨h, _⟩
  · exact .inl h
  by_cases hc : Clash H rs
  · exact .inl hc
  right
  obtain ⟨_, _, hcrc⟩ := writerOf_rooted hb hc wh crc
  generalize writerOf wh crc rs = w at h hcrc ⊢
  have e : ((w.header :: (rchunks k w.cells.length w.cells).map (w.cellsBytes w.stats.refSize)).map List.length).sum =
      (w.header ++ w.cellsBytes w.stats.refSize w.cells).length := by
    rw [← List.length_flatten, List.flatten_cons, rchunks_flatten w _ k hk _ _ (Nat.le_refl _)]
  have henc : w.encode = w.header ++ w.cellsBytes w.stats.refSize w.cells ++ if w.crc then leBytes (crc32c (w.header ++ w.cellsBytes w.stats.refSize w.cells)) else [] := rfl
  show (_ == w.stats.totalSize) = _
  rw [e, ← h, henc, hcrc, List.length_append (bs := if crc then _ else _)]
  cases crc with
  | false => simp
  | true =>
    have : (leBytes (crc32c (w.header ++ w.cellsBytes w.stats.refSize w.cells))).length = 4 := rfl
    simp only [if_true, this, Bool.not_true, beq_eq_false_iff_ne, ne_eq]
    omega

/-! ### C19 -/

/-- C19: cells with stored hashes. Every cell of the file comes back with the same contents and with its flag (or without, if
the writer was told to leave the hashes out), for all level masks. -/
theorem C19_roundtrip (H : Hasher) {rs : List CCell} (hb : ∀ r ∈ rs, Built H r) (hn : ∀ c, Below rs c → Normal c) (hne : rs ≠ []) (wh crc : Bool)
    (opts : Options) (h1 : opts.minRoots.getD 0 ≤ rs.length) (h2 : rs.length ≤ opts.maxRoots.getD 32) (hmax : AtMost rs (2 ^ 32 - 1))
    (hroots : AtLeast rs rs.length) :
    Clash H rs ∨ ∃ h out cs, decodeHeader (writerOf wh crc rs).encode opts = .ok h ∧ h.finalize H = .ok out ∧ getAll out h.roots = .ok cs ∧
      cs.map CCell.tree = rs.map CCell.tree ∧
      out.map CCell.tree = (writerOf wh crc rs).cells.map CCell.tree ∧
      out.map (fun c => c.desc.storeHashes) = (writerOf wh crc rs).cells.map (fun c => !wh && c.desc.storeHashes) ∧
      ∀ c ∈ out, Built H c := by
  by_cases hc : Clash H rs
  · exact .inl hc
  right
  obtain ⟨hr, hwh, hcrc⟩ := writerOf_rooted hb hc wh crc
  obtain ⟨h, out, r1, r2, r3, r4, r5, r6, r7, cs, r8, r9, r10⟩ := read_cells hb hn hne wh crc opts h1 h2 hmax hroots hc
  refine ⟨h, out, cs, ?_, r2, r8, r10, r6, ?_, r4⟩
  · unfold decodeHeader
    rw [r1]; rfl
  · have := congrArg (List.map CellDescriptor.storeHashes) r7
    simp only [List.map_map] at this
    show out.map (CellDescriptor.storeHashes ∘ CCell.desc) = _
    rw [this]
    apply List.map_congr_left
    intro c _
    show ((writerOf wh crc rs).descOf c).storeHashes = _
    rw [(descOf_facts _ c).2.2.2.2, hwh]

/-- C19: the reader does not look at stored hashes: two descriptions of a cell that differ only there give the same result.
(So wrong stored hashes in a file are never taken over, and never noticed.) -/
theorem C19_ignored (H : Hasher) {refSize : Nat} {raw raw' : List Byte} {d : CellDescriptor} {hs hs' data refs : List Byte}
    (h : RawShape refSize raw d hs data refs) (h' : RawShape refSize raw' d hs' data refs) (cells : List CCell) (count : Nat) :
    makeCell H raw cells count refSize = makeCell H raw' cells count refSize := by
  unfold makeCell
  rw [partsOf_shape h, partsOf_shape h']

/-! ### Witnesses and examples -/

/-- A file with one cell, with one byte of data and a stored hash and depth. -/
def flaggedFile : List Byte := [0xb5, 0xee, 0x9c, 0x72, 1, 1, 1, 1, 0, 37, 0, 0x10, 2] ++ List.replicate 32 0 ++ [0, 0, 0xab]

/-- The cell of that file. -/
def flagged : Except BocErr CCell := decode toyHasher flaggedFile

theorem flagged_ok : ∃ c, flagged = .ok c ∧ Built toyHasher c ∧ Normal c ∧ c.desc.storeHashes = true := by
  have h : (match flagged with | .ok c => c.desc.storeHashes | .error _ => false) = true := by decide +kernel
  cases hc : flagged with
  | error e => rw [hc] at h; cases h
  | ok c =>
    rw [hc] at h
    obtain ⟨a, _, b⟩ := C16_decode toyHasher flaggedFile hc
    exact ⟨c, rfl, a, b, h⟩

/-- C18, C19 are violated when `without_hashes` is set after the roots were added (the order is possible with the public
interface): the size in the header counts the hashes that are left out, `compute_stats` is wrong, and the file cannot be
read. -/
theorem C18_late : ∃ c, flagged = .ok c ∧ ((Writer.withRoot c).setWithoutHashes true).encode.length ≠ ((Writer.withRoot c).setWithoutHashes true).stats.totalSize ∧
    (∃ e, decode toyHasher ((Writer.withRoot c).setWithoutHashes true).encode = .error e) ∧
    (∃ c', decode toyHasher (writerOf true false [c]).encode = .ok c' ∧ c'.tree = c.tree) := by
  obtain ⟨c, hc, _⟩ := flagged_ok
  have h : (match flagged with
      | .ok c => decide (((Writer.withRoot c).setWithoutHashes true).encode.length ≠ ((Writer.withRoot c).setWithoutHashes true).stats.totalSize) &&
          (match decode toyHasher ((Writer.withRoot c).setWithoutHashes true).encode with | .error _ => true | .ok _ => false) &&
          (match decode toyHasher (writerOf true false [c]).encode with
            | .ok c' => c'.refs.isEmpty && c.refs.isEmpty && decide (c'.desc.isExotic = c.desc.isExotic) && decide (c'.data = c.data) && decide (c'.bitLen = c.bitLen)
            | .error _ => false)
      | .error _ => false) = true := by decide +kernel
  rw [hc] at h
  simp only [Bool.and_eq_true, decide_eq_true_eq] at h
  obtain ⟨⟨h1, h2⟩, h3⟩ := h
  refine ⟨c, hc, h1, ?_, ?_⟩
  · cases hd : decode toyHasher ((Writer.withRoot c).setWithoutHashes true).encode with
    | error e => exact ⟨e, rfl⟩
    | ok x => rw [hd] at h2; cases h2
  · cases hd : decode toyHasher (writerOf true false [c]).encode with
    | error e => rw [hd] at h3; cases h3
    | ok x =>
      rw [hd] at h3
      simp only [Bool.and_eq_true, decide_eq_true_eq] at h3
      obtain ⟨⟨⟨⟨a, b⟩, d⟩, e⟩, f⟩ := h3
      refine ⟨x, rfl, ?_⟩
      cases x with
      | mk d1 n1 b1 r1 h1 =>
        cases c with
        | mk d2 n2 b2 r2 h2 =>
          simp only [CCell.refs, CCell.desc, CCell.data, CCell.bitLen, List.isEmpty_iff] at a b d e f
          rw [a, b, e, f]
          show Cell.mk d1.isExotic _ _ = Cell.mk d2.isExotic _ _
          rw [d]

/-- C20 is violated for repeated roots when there are more roots than different cells: the file of `Boc::encode_pair` of a leaf
and itself is rejected by `Boc::decode_pair`. -/
theorem C20_duplicate_roots : ∃ c, exLeaf.build toyHasher = .ok c ∧ decodePair toyHasher (encodePair c c) = .error .tooManyRootCells := by
  obtain ⟨c, hc⟩ := Except.exists_of_isOk (r := exLeaf.build toyHasher) (by decide +kernel)
  refine ⟨c, hc, ?_⟩
  have h : (match exLeaf.build toyHasher with
      | .ok c => (match decodePair toyHasher (encodePair c c) with | .error .tooManyRootCells => true | _ => false)
      | .error _ => false) = true := by decide +kernel
  rw [hc] at h
  dsimp only at h
  split at h
  · assumption
  · cases h

/-- The hypotheses of `C15_roundtrip` are met by a cell with two references to the same leaf. -/
example : ∃ c, Built toyHasher c ∧ Plain c ∧ AtMost [c] (2 ^ 32 - 1) ∧ c.refs.length = 2 := by
  obtain ⟨a, ha⟩ := Except.exists_of_isOk (r := exLeaf.build toyHasher) (by decide +kernel)
  have wa : exLeaf.WF := (builderOf_wf _ _ _ (by simp) (by simp)).1
  obtain ⟨a1, a2⟩ := C15_builder toyHasher wa (by intro r h; cases h) ha
  have wc : (exParent a a).WF := (builderOf_wf _ _ _ (by simp) (by simp)).1
  have hr : ∀ r ∈ (exParent a a).refs, Built toyHasher r ∧ Plain r := by
    intro r hr
    rcases List.mem_cons.mp hr with rfl | hr
    · exact ⟨a1, a2⟩
    · rw [List.mem_singleton.mp hr]; exact ⟨a1, a2⟩
  have hok : (match exLeaf.build toyHasher with | .ok a => ((exParent a a).build toyHasher).isOk | .error _ => false) = true := by decide +kernel
  rw [ha] at hok
  obtain ⟨c, hc⟩ := Except.exists_of_isOk hok
  obtain ⟨c1, c2⟩ := C15_builder toyHasher wc hr hc
  obtain ⟨hs, e⟩ := finalize_fields hc
  have hrefs : c.refs = [a, a] := by rw [e]; rfl
  have hleaf : a.refs = [] := by
    obtain ⟨hs, e⟩ := finalize_fields ha
    rw [e]; rfl
  refine ⟨c, c1, c2, ⟨[c.reprHash, a.reprHash], by simp, ?_⟩, by rw [hrefs]; rfl⟩
  rintro x ⟨r, hr, s⟩
  rw [List.mem_singleton.mp hr] at s
  cases s with
  | refl => simp
  | child h s =>
    rw [hrefs] at h
    simp only [List.mem_cons, List.not_mem_nil, or_false, or_self] at h
    rw [h] at s
    cases s with
    | refl => simp
    | child h s => rw [hleaf] at h; cases h

/-- The example tree (a leaf and a pruned branch below a cell of level 1) in a file and back, with a checksum. -/
example : (match exTree with
    | .ok c => (match decode toyHasher (writerOf false true [c]).encode with
      | .ok c' => decide (c'.reprHash = c.reprHash)
      | .error _ => false)
    | .error _ => false) = true := by decide +kernel

end Boc
end Verif
