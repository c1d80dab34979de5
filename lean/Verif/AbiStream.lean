import Verif.Abi
import Verif.TlbDep
/-!
# Reading a chain of cells

The values of the ABI as a stream: groups of leaves, each group in one cell, the next cell being the last reference of the one before.
-/
set_option linter.unusedVariables false
set_option linter.unusedSimpArgs false
namespace Verif
namespace Abi

/-- What one value that is not a tuple writes. -/
abbrev Leaf := Enc Cell

/-- All leaves of a group. -/
def flatE : List Leaf → Enc Cell
  | [] => Enc.nil
  | e :: g => e ++ flatE g

/-- The contents of the first cell of the chain. -/
def chainE : List Leaf → List (List Leaf) → Enc Cell
  | g, [] => flatE g
  | g, h :: gs => flatE g ++ Enc.ref (Tlb.cellOf (chainE h gs))

/-- A leaf begins with data, or is one reference. -/
def Solid (e : Leaf) : Prop := e.1 ≠ [] ∨ ∃ c, e = Enc.ref c

def startsRef : List Leaf → Prop
  | [] => False
  | e :: _ => e.1 = []

def oneRef : List Leaf → Prop
  | [e] => e.1 = []
  | _ => False

/-- What the decoder relies on: the references `tot` of the current cell and the later groups. -/
def Link (ver : Ver) : Nat → List (List Leaf) → Prop
  | tot, [] => ver.major = 1 → tot ≤ 3
  | tot, g :: gs => g ≠ [] ∧ (ver.major = 1 → startsRef g → tot = 4) ∧ (1 < ver.major → gs = [] → ¬ oneRef g) ∧ (chainE g gs).Fits ∧
      Link ver (chainE g gs).2.length gs

/-- The slice stands before the rest `g` of a group and the later groups. -/
structure At (ver : Ver) (s : CSlice Cell) (g : List Leaf) (gs : List (List Leaf)) : Prop where
  wf : s.WF
  contents : s.contents = chainE g gs
  solid : ∀ e ∈ g ++ gs.flatten, Solid e
  link : Link ver s.refs.length gs

theorem flatE_append (a b : List Leaf) : flatE (a ++ b) = flatE a ++ flatE b := by
  induction a with
  | nil => simp [flatE]
  | cons e a ih => simp only [List.cons_append, flatE, ih, Enc.append_assoc]

theorem chainE_cons (e : Leaf) (g : List Leaf) (gs : List (List Leaf)) : chainE (e :: g) gs = e ++ chainE g gs := by
  cases gs with
  | nil => rfl
  | cons h gs => simp only [chainE, flatE, Enc.append_assoc]

theorem chainE_append (a g : List Leaf) (gs : List (List Leaf)) : chainE (a ++ g) gs = flatE a ++ chainE g gs := by
  induction a with
  | nil => simp [flatE]
  | cons e a ih => rw [List.cons_append, chainE_cons, ih, flatE, Enc.append_assoc]

theorem sizeBits_eq (s : CSlice Cell) : s.range.sizeBits = s.contents.1.length := (CSlice.bits_length s).symm
theorem sizeRefs_eq {s : CSlice Cell} (h : s.WF) : s.range.sizeRefs = s.contents.2.length := (CSlice.refList_length h).symm

/-- Reading a leaf of the current group. -/
theorem At.step {ver : Ver} {s : CSlice Cell} {e : Leaf} {g : List Leaf} {gs : List (List Leaf)} (h : At ver s (e :: g) gs) {α : Type} {p : Rd Cell α} {v : α}
    (hp : Reads p e v) : ∃ s', p s = (.ok v, s') ∧ At ver s' g gs := by
  obtain ⟨s', h1, h2, h3, h4, h5⟩ := hp s (chainE g gs) h.wf (by rw [h.contents, chainE_cons])
  exact ⟨s', h1, h2, h3, fun x hx => h.solid x (List.mem_cons_of_mem _ hx), by rw [h5]; exact h.link⟩

/-- Reading the beginning of a leaf; the rest of it is made of leaves too. -/
theorem At.part {ver : Ver} {s : CSlice Cell} {a : Enc Cell} {l g : List Leaf} {gs : List (List Leaf)} (h : At ver s ((a ++ flatE l) :: g) gs)
    (hl : ∀ e ∈ l, Solid e) {α : Type} {p : Rd Cell α} {v : α} (hp : Reads p a v) : ∃ s', p s = (.ok v, s') ∧ At ver s' (l ++ g) gs := by
  obtain ⟨s', h1, h2, h3, h4, h5⟩ := hp s (flatE l ++ chainE g gs) h.wf (by rw [h.contents, chainE_cons, Enc.append_assoc])
  refine ⟨s', h1, h2, by rw [h3, chainE_append], fun x hx => ?_, by rw [h5]; exact h.link⟩
  rw [List.append_assoc, List.mem_append] at hx
  rcases hx with hx | hx
  · exact hl x hx
  · exact h.solid x (List.mem_cons_of_mem _ hx)

/-- The jump to the next cell. -/
theorem At.jump {ver : Ver} {s : CSlice Cell} {g : List Leaf} {gs : List (List Leaf)} (h : At ver s [] (g :: gs)) :
    ∃ t s', Tlb.childSlice s = (.ok t, s') ∧ s'.range.sizeRefs = 0 ∧ At ver t g gs := by
  obtain ⟨h1, h2, h3, h4, h5⟩ := h.link
  have hr : Reads Tlb.childSlice (Enc.ref (Tlb.cellOf (chainE g gs))) (Sl.reader ⟨(chainE g gs).1, (chainE g gs).2⟩) :=
    Tlb.childSlice_loads.reads _ _ ⟨_, rfl, rfl, h4, rfl⟩
  obtain ⟨s', e1, e2, e3, e4, e5⟩ := hr s Enc.nil h.wf (by rw [h.contents]; simp [chainE, flatE])
  obtain ⟨w1, w2⟩ := Tlb.reader_contents (b := (chainE g gs).1) (r := (chainE g gs).2) h4
  refine ⟨_, s', e1, by rw [sizeRefs_eq e2, e3]; rfl, w1, w2, fun x hx => h.solid x (by simpa using hx), h5⟩

/-- Bringing a leaf with data to the front. -/
theorem At.front {ver : Ver} {s : CSlice Cell} {g : List Leaf} {gs : List (List Leaf)} (h : At ver s g gs) {e : Leaf} {rest : List Leaf}
    (hl : g ++ gs.flatten = e :: rest) {n : Nat} (hn : 0 < n) (he : n ≤ e.1.length) :
    ∃ s1 g1 gs1, preload n s = (.ok (), s1) ∧ At ver s1 (e :: g1) gs1 ∧ g1 ++ gs1.flatten = rest := by
  have hn0 : n ≠ 0 := by omega
  cases g with
  | cons e' g =>
    rw [List.cons_append] at hl
    injection hl with ha hb
    subst ha
    refine ⟨s, g, gs, ?_, h, hb⟩
    have hsz : n ≤ s.range.sizeBits := by
      rw [sizeBits_eq, h.contents, chainE_cons, Enc.append_fst, List.length_append]
      omega
    unfold preload
    rw [if_neg hn0, if_neg (by omega), if_neg (by omega)]
  | nil =>
    cases gs with
    | nil => cases hl
    | cons g' gs =>
      obtain ⟨t, s', e1, e2, e3⟩ := h.jump
      have hg' : g' ≠ [] := h.link.1
      cases g' with
      | nil => exact absurd rfl hg'
      | cons e' g' =>
        simp only [List.nil_append, List.flatten_cons, List.cons_append] at hl
        injection hl with ha hb
        subst ha
        refine ⟨t, g', gs, ?_, e3, hb⟩
        have hsz : s.range.sizeBits = 0 := by
          rw [sizeBits_eq, h.contents]
          rfl
        unfold preload
        rw [if_neg hn0, if_pos hsz, e1]
        show (if s'.range.sizeRefs = 0 then _ else _) = _
        rw [if_pos e2]

theorem solid_ref {e : Leaf} (h : Solid e) (h2 : e.1 = []) : ∃ c, e = Enc.ref c := by
  rcases h with h | h
  · exact absurd h2 h
  · exact h

theorem solid_size {e : Leaf} (h : Solid e) : 0 < e.1.length ∨ 0 < e.2.length := by
  rcases h with h | ⟨c, rfl⟩
  · exact Or.inl (List.length_pos_iff.mpr h)
  · exact Or.inr Nat.one_pos

theorem flatE_size {g : List Leaf} (hs : ∀ e ∈ g, Solid e) (h : g ≠ []) : 0 < (flatE g).1.length ∨ 0 < (flatE g).2.length := by
  cases g with
  | nil => exact absurd rfl h
  | cons e g =>
    have := solid_size (hs e List.mem_cons_self)
    simp only [flatE, Enc.append_fst, Enc.append_snd, List.length_append]
    omega

theorem chain_refs (g : List Leaf) (gs : List (List Leaf)) : (chainE g gs).2.length = (flatE g).2.length + (if gs.isEmpty then 0 else 1) := by
  cases gs with
  | nil => rfl
  | cons h gs => simp [chainE, Enc.append_snd, List.length_append, Enc.ref]

theorem window_refs {s : CSlice Cell} (h : s.WF) : s.contents.2.length ≤ s.refs.length := by
  show s.refList.length ≤ _
  unfold CSlice.refList
  rw [List.length_take, List.length_drop]
  omega

/-- Loading a reference. -/
theorem At.cell {ver : Ver} (hv : 1 ≤ ver.major) {s : CSlice Cell} {g : List Leaf} {gs : List (List Leaf)} (h : At ver s g gs) {c : Cell} {rest : List Leaf}
    (hl : g ++ gs.flatten = Enc.ref c :: rest) {last : Bool} (hlast : last = true ↔ rest = []) :
    ∃ s1 g1 gs1, loadCell ver last s = (.ok c, s1) ∧ At ver s1 g1 gs1 ∧ g1 ++ gs1.flatten = rest := by
  cases g with
  | cons e g =>
    rw [List.cons_append] at hl
    injection hl with ha hb
    subst ha
    obtain ⟨s', e1, e2⟩ := h.step (Rd.reads_ref c)
    refine ⟨s', g, gs, ?_, e2, hb⟩
    have hj : mustJump ver last s = false := by
      have hc : s.contents = Enc.ref c ++ chainE g gs := by rw [h.contents, chainE_cons]
      have hr : s.range.sizeRefs = 1 + (chainE g gs).2.length := by rw [sizeRefs_eq h.wf, hc]; simp [Enc.ref]; omega
      have hbits : s.range.sizeBits = (chainE g gs).1.length := by rw [sizeBits_eq, hc]; rfl
      rw [Bool.eq_false_iff]
      intro hj
      unfold mustJump at hj
      simp only [Bool.and_eq_true, beq_iff_eq, Bool.or_eq_true, decide_eq_true_eq, Bool.not_eq_true'] at hj
      obtain ⟨h1, h2⟩ := hj
      have hz : (chainE g gs).2.length = 0 := by omega
      have hgs : gs = [] := by
        cases gs with
        | nil => rfl
        | cons g' gs => rw [chain_refs] at hz; simp at hz
      subst hgs
      rcases h2 with ⟨h2, h3⟩ | ⟨⟨h2, h3⟩, h4⟩
      · have := h.link h2
        omega
      · have hne : rest ≠ [] := fun hh => by rw [hlast.mpr hh] at h3; cases h3
        have hg : g ≠ [] := by
          rintro rfl
          exact hne hb.symm
        rcases flatE_size (fun x hx => h.solid x (by simp [hx])) hg with hp | hp
        · rw [hbits] at h4
          change (flatE g).1.length = 0 at h4
          omega
        · change (flatE g).2.length = 0 at hz
          omega
    unfold loadCell
    rw [hj]
    exact e1
  | nil =>
    cases gs with
    | nil => cases hl
    | cons g' gs =>
      obtain ⟨t, s', e1, e2, e3⟩ := h.jump
      obtain ⟨k1, k2, k3, k4, k5⟩ := h.link
      cases g' with
      | nil => exact absurd rfl k1
      | cons e' g' =>
        simp only [List.nil_append, List.flatten_cons, List.cons_append] at hl
        injection hl with ha hb
        subst ha
        obtain ⟨t', f1, f2⟩ := e3.step (Rd.reads_ref c)
        refine ⟨t', g', gs, ?_, f2, hb⟩
        have hr : s.range.sizeRefs = 1 := by rw [sizeRefs_eq h.wf, h.contents]; rfl
        have hbits : s.range.sizeBits = 0 := by rw [sizeBits_eq, h.contents]; rfl
        have hj : mustJump ver last s = true := by
          unfold mustJump
          rw [hr, hbits]
          by_cases h1 : ver.major = 1
          · have h4 := k2 h1 rfl
            simp [h1, h4]
          · have h2 : 1 < ver.major := by omega
            have hnl : last = false := by
              rw [Bool.eq_false_iff]
              intro hl
              have hre := hlast.mp hl
              subst hre
              have hgs : gs = [] := by
                cases gs with
                | nil => rfl
                | cons g2 gs =>
                  have h2ne : g2 ≠ [] := k5.1
                  cases g2 with
                  | nil => exact absurd rfl h2ne
                  | cons x g2 => simp at hb
              have hg' : g' = [] := by
                have := List.append_eq_nil_iff.mp hb
                exact this.1
              subst hg' hgs
              exact k3 h2 rfl rfl
            simp [h2, hnl]
        unfold loadCell
        rw [hj, if_pos rfl, e1]
        exact f1

/-- A loader reads a value from the leaves `ls`, wherever they stand in a stream. -/
def Dec (ver : Ver) {α : Type} (ld : Bool → Rd Cell α) (v : α) (ls : List Leaf) : Prop :=
  ∀ (last : Bool) (s : CSlice Cell) (g : List Leaf) (gs : List (List Leaf)) (rest : List Leaf), At ver s g gs → g ++ gs.flatten = ls ++ rest →
    (last = true ↔ rest = []) → ∃ s' g' gs', ld last s = (.ok v, s') ∧ At ver s' g' gs' ∧ g' ++ gs'.flatten = rest

/-- At the end of the stream nothing is left. -/
theorem At.done {ver : Ver} {s : CSlice Cell} {g : List Leaf} {gs : List (List Leaf)} (h : At ver s g gs) (hl : g ++ gs.flatten = []) (part : Bool) :
    checkRemaining part s = .ok () := by
  obtain ⟨rfl, hf⟩ := List.append_eq_nil_iff.mp hl
  have hgs : gs = [] := by
    cases gs with
    | nil => rfl
    | cons g gs =>
      have := h.link.1
      simp only [List.flatten_cons, List.append_eq_nil_iff] at hf
      exact absurd hf.1 this
  subst hgs
  have h1 : s.range.sizeBits = 0 := by rw [sizeBits_eq, h.contents]; rfl
  have h2 : s.range.sizeRefs = 0 := by rw [sizeRefs_eq h.wf, h.contents]; rfl
  unfold SliceRange.sizeBits at h1
  unfold SliceRange.sizeRefs at h2
  unfold checkRemaining SliceRange.isDataEmpty SliceRange.isRefsEmpty
  have e1 : s.range.bitsStart ≥ s.range.bitsEnd := by omega
  have e2 : s.range.refsStart ≥ s.range.refsEnd := by omega
  simp [e1, e2]

/-- A value that is alone in its slice. -/
theorem Dec.whole {ver : Ver} {α : Type} {ld : Bool → Rd Cell α} {v : α} {ls : List Leaf} (h : Dec ver ld v ls) {s : CSlice Cell} {g : List Leaf}
    {gs : List (List Leaf)} (ha : At ver s g gs) (hl : g ++ gs.flatten = ls) (part : Bool) : Abi.whole part (ld true) s = .ok v := by
  obtain ⟨s', g', gs', h1, h2, h3⟩ := h true s g gs [] ha (by rw [hl, List.append_nil]) ⟨fun _ => rfl, fun _ => rfl⟩
  unfold Abi.whole
  rw [h1]
  show checkRemaining part s' >>= _ = _
  rw [h2.done h3 part]
  rfl

end Abi
end Verif
