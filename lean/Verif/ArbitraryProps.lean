import Verif.ArbitraryComplete

/-! C99: the generators of random cells never panic, stop on every input, and give well-formed cells only; the generator of ordinary cells
reaches every ordinary cell. -/

set_option linter.unusedVariables false

namespace Verif.Arb
open Verif Merkle

theorem sound_list {H : Hasher} {rs : List Cell} (h : ∀ r ∈ rs, Sound H r) : SoundList H rs := by
  induction rs with
  | nil => trivial
  | cons r rs ih => exact ⟨h r (List.mem_cons_self ..), ih fun x hx => h x (List.mem_cons_of_mem _ hx)⟩

theorem plain_list {rs : List Cell} (h : ∀ r ∈ rs, Plain r) : PlainList rs := by
  induction rs with
  | nil => trivial
  | cons r rs ih => exact ⟨h r (List.mem_cons_self ..), ih fun x hx => h x (List.mem_cons_of_mem _ hx)⟩

theorem closed_sound (H : Hasher) : Closed H (Sound H) where
  ordinary bits rs h := ⟨fun _ _ e => (nomatch e), fun _ _ _ e => (nomatch e), sound_list h⟩
  pruned bits _ := ⟨fun _ e => (nomatch e), fun _ _ e => (nomatch e), trivial⟩
  library bits _ := ⟨fun _ e => (nomatch e), fun _ _ e => (nomatch e), trivial⟩
  proof c h := ⟨fun x e _ => by cases e; rfl, fun _ _ e => (nomatch e), h, trivial⟩
  update o m ho hm := ⟨fun _ e => (nomatch e), fun x y e _ => by cases e; rfl, ho, hm, trivial⟩

/-! ### Property theorems -/

/-- C99: whatever the input, `Cell::arbitrary` ends without a panic: it refuses the input, or it gives a properly built cell, which is
a well-formed tree all of whose Merkle cells name the hash and depth their children have; and it does not make up input. -/
theorem C99_cell (H : Hasher) (s : Src) :
    match cell H (s.length + 1) s with
    | .ok (c, s') => s'.length ≤ s.length ∧ Built H c ∧ c.tree.WF H ∧ Sound H c.tree
    | .error e => e = .refused := by
  have h := safe_cell (closed_sound H) (Nat.lt_succ_self s.length) s (Nat.le_refl _)
  revert h
  cases cell H (s.length + 1) s with
  | error e => exact id
  | ok p => exact fun h => ⟨h.1, h.2.1, h.2.1.facts.wf, h.2.2⟩

/-- C99: whatever the input, `CellBuilder::arbitrary` ends without a panic, and `build` accepts every builder it gives. -/
theorem C99_builder (H : Hasher) (s : Src) :
    match builder H (s.length + 1) s with
    | .ok (b, s') => s'.length ≤ s.length ∧ ∃ c, b.build H = .ok c ∧ Built H c ∧ c.tree.WF H ∧ Sound H c.tree
    | .error e => e = .refused := by
  have h := safe_builder (closed_sound H) s.length (s.length + 1) (Nat.lt_succ_self _) s (Nat.le_refl _)
  revert h
  cases builder H (s.length + 1) s with
  | error e => exact id
  | ok p => exact fun h => ⟨h.1, h.2.imp fun c hc => ⟨hc.1, hc.2.1, hc.2.1.facts.wf, hc.2.2⟩⟩

/-- C99: the fuel of the model plays no part: as many levels as there are numbers, and one more, are always enough. -/
theorem C99_fuel (H : Hasher) (s : Src) (f : Nat) (hf : s.length < f) :
    builder H f s = builder H (s.length + 1) s ∧ ordBuilder H f s = ordBuilder H (s.length + 1) s :=
  ⟨(same_builder H s.length f (s.length + 1) hf (Nat.lt_succ_self _) s (Nat.le_refl _)).1,
    (same_ordBuilder H s.length f (s.length + 1) hf (Nat.lt_succ_self _) s (Nat.le_refl _)).1⟩

/-- C99: whatever the input, `OrdinaryCell::arbitrary` ends without a panic, and what it gives has no exotic cell in it, thus level 0. -/
theorem C99_ordinary (H : Hasher) (s : Src) :
    match ordCell H (s.length + 1) s with
    | .ok (c, s') => s'.length ≤ s.length ∧ Built H c ∧ c.tree.WF H ∧ Plain c.tree ∧ c.desc.levelMask = 0
    | .error e => e = .refused := by
  have h := safe_ordCell (H := H) (T := Plain) (fun _ _ h => ⟨rfl, plain_list h⟩) (Nat.lt_succ_self s.length) s (Nat.le_refl _)
  revert h
  cases ordCell H (s.length + 1) s with
  | error e => exact id
  | ok p => exact fun h => ⟨h.1, h.2.1, h.2.1.facts.wf, h.2.2, by rw [h.2.1.facts.agrees.mask]; exact plain_mask _ h.2.2⟩

/-- C99: a fuzz test over `OrdinaryCell` can reach every ordinary cell: each well-formed tree without exotic cells is made from some
input, with nothing left over. -/
theorem C99_all_ordinary (H : Hasher) (t : Cell) (hp : Plain t) (hw : t.WF H) :
    ∃ s c, ordCell H (s.length + 1) s = .ok (c, []) ∧ Built H c ∧ c.tree = t := by
  obtain ⟨s, hs⟩ := makes_cell t hp hw
  obtain ⟨c, h1, h2, h3⟩ := hs (s.length + 1) (Nat.lt_succ_self _) []
  rw [List.append_nil] at h1
  exact ⟨s, c, h1, h2, h3⟩

/-- C99: `has_max_depth` answers exactly whether the cell has the largest depth at some level. -/
theorem C99_max_depth {H : Hasher} {c : CCell} (hc : Built H c) : hasMaxDepth c = true ↔ ∃ l, c.depth l = 65535 := by
  have h := hasMaxDepth_iff hc
  constructor
  · intro e
    refine Classical.byContradiction fun hn => ?_
    have : hasMaxDepth c = false := h.mpr fun l => by
      have h1 := hc.view_ok.depth l
      have h1 : c.depth l < 65536 := h1
      have h2 : c.depth l ≠ 65535 := fun e => hn ⟨l, e⟩
      omega
    rw [e] at this; cases this
  · rintro ⟨l, hl⟩
    cases e : hasMaxDepth c with
    | true => rfl
    | false => have := h.mp e l; omega

/-- A cell of the largest depth at level 0 cannot be put into an ordinary cell. -/
theorem too_deep {H : Hasher} {c : CCell} (hc : c.depth 0 = 65535) {b : CellB CCell} (hb : b.WF) (hr : ∀ r ∈ b.refs, Built H r) (hx : b.exotic = false)
    (hm : c ∈ b.refs) : b.build H = .error .invalidCell ∨ b.build H = .error .depthOverflow := by
  refine (C10_build H hb hr).2 fun hw => ?_
  unfold Cell.WF at hw
  obtain ⟨⟨ty, h1, _, h3⟩, _⟩ := hw
  rw [hx] at h1
  have : ty = .ordinary := by cases h1; rfl
  subst this
  have h4 := h3 0 (by decide) (Or.inl rfl) (c.tree.info H) (by
    rw [Cell.infoList_eq]
    exact List.mem_map.mpr ⟨c.tree, List.mem_map.mpr ⟨c, hm, rfl⟩, rfl⟩)
  have h5 : (c.tree.info H).depth 0 < 65535 := h4
  rw [← (hr c hm).facts.agrees.depth] at h5
  omega

/-- The input for an empty ordinary cell over a pruned branch that claims depth 65534. -/
def deepInput : Src := [0, 0, 1, 1, 0] ++ List.replicate 32 0 ++ [65534]

theorem deep_of {H : Hasher} {s : Src} (hrun : (match cell H (s.length + 1) s with
      | .ok (c, s') => decide (c.depth 0 = 65535 ∧ s' = [])
      | .error _ => false) = true) : ∃ c, cell H (s.length + 1) s = .ok (c, []) ∧ Built H c ∧ c.depth 0 = 65535 := by
  have hsafe := C99_cell H s
  cases e : cell H (s.length + 1) s with
  | error x => rw [e] at hrun; cases hrun
  | ok p =>
    obtain ⟨c, s'⟩ := p
    rw [e] at hrun hsafe
    have hrun : c.depth 0 = 65535 ∧ s' = [] := of_decide_eq_true hrun
    obtain ⟨hd, rfl⟩ := hrun
    exact ⟨c, rfl, hsafe.2.1, hd⟩

/-- C99 (finding): `Cell::arbitrary` does give cells that do not fit into any other ordinary cell: no builder that refers to one can be
built. `StateInit::arbitrary` (`models/account/mod.rs:438-466`) takes code and data from it without `check_max_depth`, and
`ShardAccount::arbitrary` (`models/account/mod.rs:197-204`) unwraps the result of building the account's cell around them:
it panics on such inputs. -/
theorem C99_deep_cells : ∃ s c, cell toyHasher (s.length + 1) s = .ok (c, []) ∧ Built toyHasher c ∧ hasMaxDepth c = true ∧
    ∀ b : CellB CCell, b.WF → (∀ r ∈ b.refs, Built toyHasher r) → b.exotic = false → c ∈ b.refs →
      b.build toyHasher = .error .invalidCell ∨ b.build toyHasher = .error .depthOverflow := by
  have hrun : (match cell toyHasher (deepInput.length + 1) deepInput with
      | .ok (c, s') => decide (c.depth 0 = 65535 ∧ s' = [])
      | .error _ => false) = true := by decide +kernel
  generalize deepInput = s at hrun
  obtain ⟨c, h1, hb, hd⟩ := deep_of hrun
  exact ⟨s, c, h1, hb, (C99_max_depth hb).mpr ⟨0, hd⟩, fun b hb hr hx hm => too_deep hd hb hr hx hm⟩

/-! ### Non-vacuity -/

/-- One input for each of the five types; the last is refused for lack of input. -/
example : ([[0, 11, 2, 0xab, 0xcd, 0, 3, 0, 0x70, 1], [1, 4] ++ List.replicate 64 7 ++ [5, 6], [2] ++ List.replicate 32 9,
      [3, 0, 8, 0, 0x55], [4, 0, 8, 0, 0x55, 2] ++ List.replicate 32 9].map fun s =>
    match cell toyHasher (s.length + 1) s with
    | .ok (c, s') => decide (s' = []) && decide (typeOf c.desc.isExotic c.tree.bits ≠ some .ordinary ∨ c.refs.length = 2)
    | .error _ => false) = [true, true, true, true, true] ∧
    (match cell toyHasher 10 [2, 1, 1] with | .ok _ => false | .error e => decide (e = .refused)) = true := by decide +kernel

theorem plain_of {H : Hasher} {s : Src} {n : Nat} (hrun : (match ordCell H (s.length + 1) s with
      | .ok (c, s') => decide (c.tree.refs.length = n)
      | .error _ => false) = true) : ∃ t : Cell, Plain t ∧ t.WF H ∧ t.refs.length = n := by
  have hsafe := C99_ordinary H s
  generalize ordCell H (s.length + 1) s = r at hrun hsafe
  cases r with
  | error x => cases hrun
  | ok p => exact ⟨p.1.tree, hsafe.2.2.2.1, hsafe.2.2.1, of_decide_eq_true hrun⟩

/-- An ordinary tree of several cells, with a cell used twice, meets the hypotheses of `C99_all_ordinary`. -/
example : ∃ t : Cell, Plain t ∧ t.WF toyHasher ∧ t.refs.length = 3 :=
  plain_of (s := [3, 3, 0xff, 0, 1, 0, 0, 1]) (by decide +kernel)

end Verif.Arb
