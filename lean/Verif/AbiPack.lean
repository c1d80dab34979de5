import Verif.AbiStream
/-!
# How the serializer packs leaves into cells
-/
set_option linter.unusedVariables false
set_option linter.unusedSimpArgs false
namespace Verif
namespace Abi

/-- A leaf with the size that the serializer asks for. -/
structure Item where
  z : Size
  e : Leaf

def sumBits (T : List Item) : Nat := (T.map (·.z.bits)).sum
def sumRefs (T : List Item) : Nat := (T.map (·.z.refs)).sum

@[simp] theorem sumBits_nil : sumBits [] = 0 := rfl
@[simp] theorem sumRefs_nil : sumRefs [] = 0 := rfl
@[simp] theorem sumBits_cons (i : Item) (T : List Item) : sumBits (i :: T) = i.z.bits + sumBits T := by simp [sumBits]
@[simp] theorem sumRefs_cons (i : Item) (T : List Item) : sumRefs (i :: T) = i.z.refs + sumRefs T := by simp [sumRefs]
@[simp] theorem sumBits_append (A B : List Item) : sumBits (A ++ B) = sumBits A + sumBits B := by simp [sumBits]
@[simp] theorem sumRefs_append (A B : List Item) : sumRefs (A ++ B) = sumRefs A + sumRefs B := by simp [sumRefs]

/-- The items are stored one after another. -/
inductive PutAll (ver : Ver) : List Item → Ser → Ser → Prop
  | nil (s : Ser) : PutAll ver [] s s
  | cons {i : Item} {T : List Item} {w : Wr Cell Unit} {s s1 s2 : Ser} (hw : Writes w i.e) (h : put ver i.z w s = .ok s1) (r : PutAll ver T s1 s2) :
      PutAll ver (i :: T) s s2

theorem PutAll.append {ver : Ver} {A B : List Item} {s s1 s2 : Ser} (h : PutAll ver A s s1) (h2 : PutAll ver B s1 s2) : PutAll ver (A ++ B) s s2 := by
  induction h with
  | nil => exact h2
  | cons hw h r ih => exact .cons hw h (ih h2)

theorem PutAll.one {ver : Ver} {z : Size} {e : Leaf} {w : Wr Cell Unit} {s s1 : Ser} (hw : Writes w e) (h : put ver z w s = .ok s1) :
    PutAll ver [⟨z, e⟩] s s1 := .cons (i := ⟨z, e⟩) hw h (.nil _)

/-- What items have to satisfy. -/
structure Item.Ok (i : Item) : Prop where
  solid : Solid i.e
  asRef : i.e.1 = [] → i.z = ⟨0, 1⟩
  bits : i.z.bits ≤ 1023
  refs : i.z.refs ≤ 3
  cover : i.e.1.length ≤ i.z.bits

/-- The builders hold the groups, the last one first. -/
inductive Hold : List (CellB Cell) → List (List Leaf) → Prop
  | nil : Hold [] []
  | cons {b : CellB Cell} {g : List Leaf} {bs : List (CellB Cell)} {gs : List (List Leaf)} (wf : b.WF) (c : b.contents = flatE g) (r : Hold bs gs) :
      Hold (b :: bs) (g :: gs)

/-- Later groups (which come first) are not empty, and begin with a reference only when they have to. -/
def Linked (ver : Ver) : List (List Leaf) → Prop
  | [] => True
  | [g] => g ≠ []
  | h :: g :: gs => h ≠ [] ∧ (ver.major = 1 → startsRef h → (flatE g).2.length = 3) ∧ Linked ver (g :: gs)

/-- What a store into the required builder does. -/
theorem put_inv {ver : Ver} {z : Size} {e : Leaf} {w : Wr Cell Unit} {s s1 : Ser} (hw : Writes w e) (h : put ver z w s = .ok s1) {gs : List (List Leaf)}
    (hh : Hold s.stack gs) :
    s.current.bits ≤ 1023 ∧ s.current.refs ≤ 4 ∧
    s1.remaining = ⟨s.remaining.bits - z.bits, s.remaining.refs - z.refs⟩ ∧
    ((inPlace ver ⟨1023 - s.current.bits, 4 - s.current.refs⟩ s1.remaining z = true ∧ s1.current = s.current + z ∧
        ((gs = [] ∧ Hold s1.stack [[e]]) ∨ ∃ g gs', gs = g :: gs' ∧ Hold s1.stack ((g ++ [e]) :: gs'))) ∨
     (inPlace ver ⟨1023 - s.current.bits, 4 - s.current.refs⟩ s1.remaining z = false ∧ s1.current = z ∧
        ((gs = [] ∧ Hold s1.stack [[e], []]) ∨ (gs ≠ [] ∧ Hold s1.stack ([e] :: gs))))) := by
  have hnew : (CellB.new : CellB Cell).contents = flatE [] := rfl
  have wfnew : (CellB.new : CellB Cell).WF := CellB.wf_new
  have step : ∀ (b : CellB Cell) (g : List Leaf), b.WF → b.contents = flatE g → ∀ b', w b = (.ok (), b') → b'.WF ∧ b'.contents = flatE (g ++ [e]) := by
    intro b g wf hc b' hb
    by_cases hf : (b.contents ++ e : Enc Cell).Fits
    · obtain ⟨b2, r, wf2, c2, _⟩ := (hw b wf).1 hf
      rw [r] at hb
      injection hb with _ hb
      subst hb
      exact ⟨wf2, by rw [c2, hc, flatE_append]; simp [flatE]⟩
    · obtain ⟨b2, r, _⟩ := (hw b wf).2 hf
      rw [r] at hb
      cases hb
  unfold put at h
  cases hr : s.require ver z with
  | error x => rw [hr] at h; cases h
  | ok s0 =>
    rw [hr] at h
    change (match s0.stack with
      | [] => Except.error Err.panic
      | b :: bs => match w b with
        | (.error e, _) => .error e
        | (.ok _, b') => .ok { s0 with stack := b' :: bs }) = _ at h
    unfold Ser.require at hr
    dsimp only at hr
    by_cases hc : (decide (s.current.bits > 1023) || decide (s.current.refs > 4)) = true
    · rw [if_pos hc] at hr; cases hr
    rw [if_neg hc] at hr
    simp only [Bool.or_eq_true, decide_eq_true_eq, not_or, Nat.not_lt] at hc
    refine ⟨hc.1, hc.2, ?_⟩
    by_cases hp : inPlace ver ⟨1023 - s.current.bits, 4 - s.current.refs⟩ ⟨s.remaining.bits - z.bits, s.remaining.refs - z.refs⟩ z = true
    · rw [if_pos hp] at hr
      injection hr with hr
      subst hr
      dsimp only at h
      generalize s.stack = st at hh h
      cases hh with
      | nil =>
        dsimp only at h
        rcases hwb : w CellB.new with ⟨r, b'⟩
        rw [hwb] at h
        cases r with
        | error x => cases h
        | ok _ =>
          injection h with h
          subst h
          obtain ⟨wf', c'⟩ := step _ [] wfnew hnew b' hwb
          exact ⟨rfl, Or.inl ⟨hp, rfl, Or.inl ⟨rfl, .cons wf' c' .nil⟩⟩⟩
      | @cons b g bs gs wf c rr =>
        dsimp only at h
        rcases hwb : w b with ⟨r, b'⟩
        rw [hwb] at h
        cases r with
        | error x => cases h
        | ok _ =>
          injection h with h
          subst h
          obtain ⟨wf', c'⟩ := step _ g wf c b' hwb
          exact ⟨rfl, Or.inl ⟨hp, rfl, Or.inr ⟨g, gs, rfl, .cons wf' c' rr⟩⟩⟩
    · rw [if_neg hp] at hr
      injection hr with hr
      subst hr
      dsimp only at h
      rcases hwb : w CellB.new with ⟨r, b'⟩
      rw [hwb] at h
      cases r with
      | error x => cases h
      | ok _ =>
        injection h with h
        subst h
        obtain ⟨wf', c'⟩ := step _ [] wfnew hnew b' hwb
        refine ⟨rfl, Or.inr ⟨by simpa using hp, rfl, ?_⟩⟩
        generalize s.stack = st at hh
        cases hh with
        | nil => exact Or.inl ⟨rfl, .cons wf' c' (.cons wfnew hnew .nil)⟩
        | cons wf c rr => exact Or.inr ⟨by simp, .cons wf' c' (.cons wf c rr)⟩

/-- A value goes into the current cell if there is room, with a reference to spare. -/
theorem inPlace_room {ver : Ver} {a rest z : Size} (h1 : z.bits ≤ a.bits) (h2 : z.refs < a.refs) : inPlace ver a rest z = true := by
  unfold inPlace
  have e1 : (decide (z.bits > a.bits) || decide (z.refs > a.refs)) = false := by
    simp only [Bool.or_eq_false_iff, decide_eq_false_iff_not]
    omega
  have e2 : (decide (z.refs > 0) && z.refs == a.refs) = false := by
    have : (z.refs == a.refs) = false := by rw [beq_eq_false_iff_ne]; omega
    rw [this, Bool.and_false]
  rw [e1, e2]
  rfl

theorem inPlace_true {ver : Ver} {a rest z : Size} (h : inPlace ver a rest z = true) :
    z.bits ≤ a.bits ∧ z.refs ≤ a.refs ∧ (z.refs = 0 ∨ z.refs < a.refs ∨ (ver.major ≠ 1 ∧ rest.refs = 0)) := by
  unfold inPlace at h
  by_cases h1 : (decide (z.bits > a.bits) || decide (z.refs > a.refs)) = true
  · rw [if_pos h1] at h; cases h
  · rw [if_neg h1] at h
    simp only [Bool.or_eq_true, decide_eq_true_eq, not_or, Nat.not_lt] at h1
    refine ⟨h1.1, h1.2, ?_⟩
    by_cases h2 : (decide (z.refs > 0) && z.refs == a.refs) = true
    · rw [if_pos h2] at h
      simp only [Bool.and_eq_true, bne_iff_ne, beq_iff_eq, decide_eq_true_eq] at h
      exact Or.inr (Or.inr ⟨h.1.1, h.1.2⟩)
    · simp only [Bool.and_eq_true, decide_eq_true_eq, beq_iff_eq, not_and] at h2
      by_cases h3 : z.refs = 0
      · exact Or.inl h3
      · have := h2 (by omega)
        exact Or.inr (Or.inl (by omega))

theorem inPlace_ref {ver : Ver} {cur rest : Size} (h1 : cur.bits ≤ 1023) (h2 : cur.refs ≤ 4) (h : inPlace ver ⟨1023 - cur.bits, 4 - cur.refs⟩ rest ⟨0, 1⟩ = false) :
    3 ≤ cur.refs ∧ (cur.refs = 4 ∨ ver.major = 1 ∨ rest.refs ≠ 0 ∨ 1023 - cur.bits < rest.bits) := by
  unfold inPlace at h
  by_cases h3 : cur.refs = 4
  · exact ⟨by omega, Or.inl h3⟩
  · have e1 : (decide ((⟨0, 1⟩ : Size).bits > (⟨1023 - cur.bits, 4 - cur.refs⟩ : Size).bits) || decide ((⟨0, 1⟩ : Size).refs > (⟨1023 - cur.bits, 4 - cur.refs⟩ : Size).refs)) = false := by
      simp only [Bool.or_eq_false_iff, decide_eq_false_iff_not]
      omega
    rw [e1] at h
    simp only [Bool.false_eq_true, if_false, Nat.zero_lt_one, decide_true, Bool.true_and, gt_iff_lt] at h
    by_cases h4 : (1 == 4 - cur.refs) = true
    · rw [if_pos h4] at h
      rw [beq_iff_eq] at h4
      refine ⟨by omega, Or.inr ?_⟩
      simp only [Bool.and_eq_false_iff, bne_eq_false_iff_eq, beq_eq_false_iff_ne, decide_eq_false_iff_not] at h
      rcases h with (h | h) | h
      · exact Or.inl h
      · exact Or.inr (Or.inl h)
      · exact Or.inr (Or.inr (by omega))
    · rw [if_neg h4] at h
      cases h

/-- The state between two items. -/
structure Inv (ver : Ver) (s : Ser) (gs : List (List Leaf)) (T : List Item) : Prop where
  hold : Hold s.stack gs
  linked : Linked ver gs
  fresh : gs = [] → s.current.refs = 0 ∧ ∀ i T', T = i :: T' → s.current.bits + i.z.bits ≤ 1023
  one : ver.major = 1 → s.current.refs ≤ 3 ∧ ∀ g gs', gs = g :: gs' → (flatE g).2.length = s.current.refs
  two : 1 < ver.major → s.remaining.refs = sumRefs T ∧ s.remaining.bits ≤ sumBits T ∧ (0 < sumRefs T → s.current.refs ≤ 3) ∧
    (T = [] → ∀ g h gs', gs = g :: h :: gs' → ¬ oneRef g)

theorem linked_ne {ver : Ver} {g : List Leaf} {gs : List (List Leaf)} (h : Linked ver (g :: gs)) : g ≠ [] := by
  cases gs with
  | nil => exact h
  | cons => exact h.1

theorem linked_snoc {ver : Ver} {g : List Leaf} {gs : List (List Leaf)} {e : Leaf} (h : Linked ver (g :: gs)) : Linked ver ((g ++ [e]) :: gs) := by
  have hg := linked_ne h
  cases gs with
  | nil => exact (by simp : g ++ [e] ≠ [])
  | cons k gs =>
    refine ⟨by simp, fun h1 h2 => h.2.1 h1 ?_, h.2.2⟩
    cases g with
    | nil => exact absurd rfl hg
    | cons => exact h2

theorem flatE_snoc_refs (g : List Leaf) (e : Leaf) : (flatE (g ++ [e])).2.length = (flatE g).2.length + e.2.length := by
  rw [flatE_append]
  simp [flatE, Enc.nil]

theorem Size.add_bits (a b : Size) : (a + b).bits = a.bits + b.bits := rfl
theorem Size.add_refs (a b : Size) : (a + b).refs = a.refs + b.refs := rfl

/-- The first group (which comes last) has only been added to. -/
def Grows (gs gs1 : List (List Leaf)) : Prop := ∀ g, gs.getLast? = some g → ∃ x, gs1.getLast? = some (g ++ x)

theorem Grows.refl (gs : List (List Leaf)) : Grows gs gs := fun g h => ⟨[], by rw [h, List.append_nil]⟩
theorem Grows.trans {a b c : List (List Leaf)} (h1 : Grows a b) (h2 : Grows b c) : Grows a c := by
  intro g h
  obtain ⟨x, hx⟩ := h1 g h
  obtain ⟨y, hy⟩ := h2 _ hx
  exact ⟨x ++ y, by rw [hy, List.append_assoc]⟩
theorem Grows.add (g : List Leaf) (e : Leaf) (gs : List (List Leaf)) : Grows (g :: gs) ((g ++ [e]) :: gs) := by
  intro k h
  cases gs with
  | nil =>
    injection h with h
    subst h
    exact ⟨[e], rfl⟩
  | cons a gs => exact ⟨[], by rw [List.append_nil]; exact h⟩
theorem Grows.push (g : List Leaf) {gs : List (List Leaf)} : Grows gs (g :: gs) := by
  intro k h
  cases gs with
  | nil => cases h
  | cons a gs => exact ⟨[], by rw [List.append_nil]; exact h⟩

theorem Inv.step {ver : Ver} (hv : 1 ≤ ver.major) {s s1 : Ser} {gs : List (List Leaf)} {i : Item} {T : List Item} (h : Inv ver s gs (i :: T)) (hi : i.Ok)
    (h1 : ver.major = 1 → i.e.2.length = i.z.refs) {w : Wr Cell Unit} (hw : Writes w i.e) (hp : put ver i.z w s = .ok s1) :
    ∃ gs1, Inv ver s1 gs1 T ∧ gs1.reverse.flatten = gs.reverse.flatten ++ [i.e] ∧ Grows gs gs1 := by
  obtain ⟨c1, c2, c3, hcase⟩ := put_inv hw hp h.hold
  have two : 1 < ver.major → s1.remaining.refs = sumRefs T ∧ s1.remaining.bits ≤ sumBits T := by
    intro hm
    obtain ⟨t1, t2, t3, t4⟩ := h.two hm
    rw [sumRefs_cons] at t1
    rw [sumBits_cons] at t2
    rw [c3]
    dsimp only
    omega
  rcases hcase with ⟨hpl, hcur, hg⟩ | ⟨hpl, hcur, hg⟩
  · obtain ⟨p1, p2, p3⟩ := inPlace_true hpl
    dsimp only at p1 p2 p3
    have cur1 : ver.major = 1 → s.current.refs ≤ 3 → s1.current.refs ≤ 3 := by
      intro hm h3
      rw [hcur, Size.add_refs]
      rcases p3 with p3 | p3 | ⟨p3, _⟩
      · omega
      · omega
      · exact absurd hm p3
    have cur2 : 1 < ver.major → (0 < sumRefs T → s1.current.refs ≤ 3) := by
      intro hm hpos
      obtain ⟨t1, t2, t3, t4⟩ := h.two hm
      rw [sumRefs_cons] at t3
      have := t3 (by omega)
      rw [hcur, Size.add_refs]
      rcases p3 with p3 | p3 | ⟨_, p3⟩
      · omega
      · omega
      · rw [(two hm).1] at p3
        omega
    rcases hg with ⟨rfl, hh⟩ | ⟨g, gs', rfl, hh⟩
    · have hc0 : s.current.refs = 0 := (h.fresh rfl).1
      refine ⟨[[i.e]], ⟨hh, (by simp : [i.e] ≠ []), (by intro hx; cases hx), fun hm => ⟨cur1 hm (h.one hm).1, ?_⟩,
        fun hm => ⟨(two hm).1, (two hm).2, cur2 hm, fun _ g h gs' hx => by cases hx⟩⟩, by simp, by intro g hg; cases hg⟩
      rintro g gs' hx
      injection hx with hx _
      subst hx
      rw [hcur, Size.add_refs, hc0]
      show _ = 0 + i.z.refs
      rw [← h1 hm]
      simp [flatE, Enc.nil]
    · refine ⟨(g ++ [i.e]) :: gs', ⟨hh, linked_snoc h.linked, (by intro hx; cases hx), fun hm => ⟨cur1 hm (h.one hm).1, ?_⟩,
        fun hm => ⟨(two hm).1, (two hm).2, cur2 hm, ?_⟩⟩, by simp, Grows.add _ _ _⟩
      · rintro g2 gs2 hx
        injection hx with hx _
        subst hx
        rw [hcur, Size.add_refs, flatE_snoc_refs, (h.one hm).2 g gs' rfl, h1 hm]
      · intro _ g2 k gs2 hx
        injection hx with hx hx2
        subst hx hx2
        have hg := linked_ne h.linked
        cases g with
        | nil => exact absurd rfl hg
        | cons x g =>
          cases g with
          | nil => exact fun hh => hh
          | cons => exact fun hh => hh
  · have hgs : gs ≠ [] := by
      rintro rfl
      obtain ⟨f1, f2⟩ := h.fresh rfl
      rw [inPlace_room (by have := f2 i T rfl; show i.z.bits ≤ 1023 - s.current.bits; omega) (by have := hi.refs; show i.z.refs < 4 - s.current.refs; omega)] at hpl
      cases hpl
    have hh : Hold s1.stack ([i.e] :: gs) := by
      rcases hg with ⟨hx, _⟩ | ⟨_, hx⟩
      · exact absurd hx hgs
      · exact hx
    have hr3 : ∀ hx : i.e.1 = [], 3 ≤ s.current.refs ∧ (s.current.refs = 4 ∨ ver.major = 1 ∨ s1.remaining.refs ≠ 0 ∨ 1023 - s.current.bits < s1.remaining.bits) := by
      intro hx
      rw [hi.asRef hx] at hpl
      exact inPlace_ref c1 c2 hpl
    refine ⟨[i.e] :: gs, ⟨hh, ?_, (by intro hx; cases hx), fun hm => ⟨by rw [hcur]; exact hi.refs, ?_⟩,
      fun hm => ⟨(two hm).1, (two hm).2, fun _ => by rw [hcur]; exact hi.refs, ?_⟩⟩, by simp, Grows.push _⟩
    · cases gs with
      | nil => exact absurd rfl hgs
      | cons g gs =>
        refine ⟨by simp, fun hm hx => ?_, h.linked⟩
        have := (hr3 hx).1
        have h3 := (h.one hm).1
        rw [(h.one hm).2 g gs rfl]
        omega
    · rintro g gs2 hx
      injection hx with hx _
      subst hx
      rw [hcur, ← h1 hm]
      simp [flatE, Enc.nil]
    · rintro rfl g k gs2 hx hone
      injection hx with hx _
      subst hx
      have hx : i.e.1 = [] := hone
      obtain ⟨t1, t2, t3, t4⟩ := h.two hm
      have hz := hi.asRef hx
      rw [sumRefs_cons, hz] at t3
      have h3 := t3 (by show 0 < 1 + _; omega)
      obtain ⟨u1, u2⟩ := two hm
      rw [sumRefs_nil] at u1
      rw [sumBits_nil] at u2
      rcases (hr3 hx).2 with h4 | h4 | h4 | h4
      · omega
      · omega
      · exact h4 u1
      · omega

theorem Inv.all {ver : Ver} (hv : 1 ≤ ver.major) {T : List Item} {s s1 : Ser} (hp : PutAll ver T s s1) (R : List Item) :
    ∀ {gs : List (List Leaf)}, Inv ver s gs (T ++ R) → (∀ i ∈ T, i.Ok ∧ (ver.major = 1 → i.e.2.length = i.z.refs)) →
    ∃ gs1, Inv ver s1 gs1 R ∧ gs1.reverse.flatten = gs.reverse.flatten ++ T.map (·.e) ∧ Grows gs gs1 := by
  induction hp with
  | nil s => intro gs h _; exact ⟨gs, h, by simp, .refl _⟩
  | @cons i T w s s1 s2 hw h r ih =>
    intro gs hi hT
    obtain ⟨gs1, h1, h2, h5⟩ := hi.step hv (hT i List.mem_cons_self).1 (hT i List.mem_cons_self).2 hw h
    obtain ⟨gs2, h3, h4, h6⟩ := ih h1 (fun j hj => hT j (List.mem_cons_of_mem _ hj))
    exact ⟨gs2, h3, by rw [h4, h2]; simp, h5.trans h6⟩

/-- What a serializer that has been finalized holds. -/
structure Pack (ver : Ver) (b : CellB Cell) (g : List Leaf) (gs : List (List Leaf)) : Prop where
  wf : b.WF
  contents : b.contents = chainE g gs
  link : Link ver b.refs.length gs
  ne : g ≠ []

theorem build_ok {acc : Cell → Bool} {b : CellB Cell} {c : Cell} (h : build acc b = .ok c) : c = Tlb.cellOf b.contents := by
  unfold build buildSl at h
  by_cases ha : acc (.mk false b.inner.bits b.refs) = true
  · rw [if_pos ha] at h
    injection h with h
    exact h.symm
  · rw [if_neg ha] at h
    cases h

theorem ref_ok {c : Cell} {b b' : CellB Cell} (wf : b.WF) (h : (Wr.ref c : Wr Cell Unit) b = (.ok (), b')) : b'.WF ∧ b'.contents = b.contents ++ Enc.ref c := by
  have hw : Writes (Wr.ref c : Wr Cell Unit) (Enc.ref c) := (Wr.writes_ref c).writes
  by_cases hf : (b.contents ++ Enc.ref c : Enc Cell).Fits
  · obtain ⟨b2, r, wf2, c2, _⟩ := (hw b wf).1 hf
    rw [r] at h
    injection h with _ h
    subst h
    exact ⟨wf2, c2⟩
  · obtain ⟨b2, r, _⟩ := (hw b wf).2 hf
    rw [r] at h
    cases h

theorem nest_inv {ver : Ver} {acc : Cell → Bool} {bs : List (CellB Cell)} {gs : List (List Leaf)} (hh : Hold bs gs) :
    ∀ {result b : CellB Cell} {h : List Leaf} {L : List (List Leaf)}, nest acc result bs = .ok b → Linked ver (h :: gs) → Pack ver result h L →
    (1 < ver.major → L = [] → gs ≠ [] → ¬ oneRef h) → ∃ g G, Pack ver b g G ∧ g ++ G.flatten = gs.reverse.flatten ++ (h ++ L.flatten) ∧
      (h :: gs).getLast? = some g := by
  induction hh with
  | nil =>
    intro result b h L hn hl hp _
    injection hn with hn
    subst hn
    exact ⟨h, L, hp, by simp, rfl⟩
  | @cons b0 g0 bs gs wf c r ih =>
    intro result b h L hn hl hp h1
    unfold nest at hn
    cases hb : build acc result with
    | error x => rw [hb] at hn; cases hn
    | ok cc =>
      rw [hb] at hn
      change (match (Wr.ref cc : Wr Cell Unit) b0 with
        | (.error e, _) => (Except.error e : Except Err (CellB Cell))
        | (.ok _, b') => nest acc b' bs) = _ at hn
      have hcc := build_ok hb
      rcases hr : (Wr.ref cc : Wr Cell Unit) b0 with ⟨x, b'⟩
      rw [hr] at hn
      cases x with
      | error x => cases hn
      | ok _ =>
        change nest acc b' bs = .ok b at hn
        obtain ⟨wf', c'⟩ := ref_ok wf hr
        have hcont : b'.contents = chainE g0 (h :: L) := by rw [c', c, hcc, hp.contents]; rfl
        have hrefs : b'.refs.length = (flatE g0).2.length + 1 := by
          have : b'.refs.length = b'.contents.2.length := rfl
          rw [this, hcont, chain_refs]
          rfl
        have hpack : Pack ver b' g0 (h :: L) := by
          refine ⟨wf', hcont, ⟨hp.ne, fun hm hx => ?_, fun hm hL => h1 hm hL (by simp), ?_, ?_⟩, linked_ne hl.2.2⟩
          · rw [hrefs, hl.2.1 hm hx]
          · rw [← hp.contents]; exact hp.wf.contents_fits
          · rw [← hp.contents]; exact hp.link
        obtain ⟨g, G, k1, k2, k3⟩ := ih hn hl.2.2 hpack (by intro _ hx; cases hx)
        exact ⟨g, G, k1, by rw [k2]; simp, by rw [List.getLast?_cons_cons]; exact k3⟩

/-- The packing when the sizes are accounted for: all in one cell, or in a first version with exact references, or reserved as declared. -/
def Acct (ver : Ver) (o : Nat) (T : List Item) (res : Size) : Prop :=
  (o + sumBits T ≤ 1023 ∧ sumRefs T ≤ 3 ∧ (ver.major = 1 → ∀ i ∈ T, i.e.2.length ≤ i.z.refs)) ∨
  (ver.major = 1 ∧ ∀ i ∈ T, i.e.2.length = i.z.refs) ∨
  (1 < ver.major ∧ res.refs = sumRefs T ∧ res.bits ≤ sumBits T)

theorem all_in_one {ver : Ver} {T : List Item} {s s1 : Ser} (hp : PutAll ver T s s1) :
    ∀ {g : List Leaf}, (s.stack = [] ∧ g = [] ∨ Hold s.stack [g]) → s.current.bits + sumBits T ≤ 1023 → s.current.refs + sumRefs T ≤ 3 → T ≠ [] →
    (∀ i ∈ T, i.Ok) → Hold s1.stack [g ++ T.map (·.e)] := by
  induction hp with
  | nil s => intro g _ _ _ h; exact absurd rfl h
  | @cons i T w s s1 s2 hw h r ih =>
    intro g hs hb hr _ hok
    rw [sumBits_cons] at hb
    rw [sumRefs_cons] at hr
    have key : inPlace ver ⟨1023 - s.current.bits, 4 - s.current.refs⟩ s1.remaining i.z = true := by
      unfold inPlace
      have e1 : (decide (i.z.bits > 1023 - s.current.bits) || decide (i.z.refs > 4 - s.current.refs)) = false := by
        simp only [Bool.or_eq_false_iff, decide_eq_false_iff_not]
        omega
      have e2 : (decide (i.z.refs > 0) && i.z.refs == 4 - s.current.refs) = false := by
        have : (i.z.refs == 4 - s.current.refs) = false := by rw [beq_eq_false_iff_ne]; omega
        rw [this, Bool.and_false]
      dsimp only
      rw [e1, e2]
      rfl
    have hstep : s1.current = s.current + i.z ∧ Hold s1.stack [g ++ [i.e]] := by
      rcases hs with ⟨h0, rfl⟩ | hh
      · obtain ⟨c1, c2, c3, hcase⟩ := put_inv hw h (gs := []) (by rw [h0]; exact .nil)
        rcases hcase with ⟨_, hcur, hg⟩ | ⟨hpl, _⟩
        · rcases hg with ⟨_, hg⟩ | ⟨_, _, hx, _⟩
          · exact ⟨hcur, hg⟩
          · cases hx
        · rw [key] at hpl; cases hpl
      · obtain ⟨c1, c2, c3, hcase⟩ := put_inv hw h hh
        rcases hcase with ⟨_, hcur, hg⟩ | ⟨hpl, _⟩
        · rcases hg with ⟨hx, _⟩ | ⟨g', gs', hx, hg⟩
          · cases hx
          · injection hx with hx hx2
            subst hx hx2
            exact ⟨hcur, hg⟩
        · rw [key] at hpl; cases hpl
    obtain ⟨hcur, hh⟩ := hstep
    cases T with
    | nil => cases r; simpa using hh
    | cons j T =>
      have := ih (g := g ++ [i.e]) (Or.inr hh) (by rw [hcur, Size.add_bits]; omega) (by rw [hcur, Size.add_refs]; omega) (by simp)
        (fun k hk => hok k (List.mem_cons_of_mem _ hk))
      simpa using this

theorem sum_le {T : List Item} (h : ∀ i ∈ T, i.e.2.length ≤ i.z.refs) : (flatE (T.map (·.e))).2.length ≤ sumRefs T := by
  induction T with
  | nil => exact Nat.le_refl 0
  | cons i T ih =>
    have h1 := h i List.mem_cons_self
    have h2 := ih fun j hj => h j (List.mem_cons_of_mem _ hj)
    simp only [List.map_cons, flatE, Enc.append_snd, List.length_append, sumRefs_cons]
    omega

theorem PutAll.split {ver : Ver} {A B : List Item} {s s2 : Ser} (h : PutAll ver (A ++ B) s s2) : ∃ s1, PutAll ver A s s1 ∧ PutAll ver B s1 s2 := by
  induction A generalizing s with
  | nil => exact ⟨s, .nil s, h⟩
  | cons i A ih =>
    cases h with
    | cons hw h r =>
      obtain ⟨s1, h1, h2⟩ := ih r
      exact ⟨s1, .cons hw h h1, h2⟩

theorem Hold.length {bs : List (CellB Cell)} {gs : List (List Leaf)} (h : Hold bs gs) : bs.length = gs.length := by
  induction h with
  | nil => rfl
  | cons wf c r ih => simp [ih]

/-- What comes out of the serializer. The items `P` at the beginning have no references and fit into the first cell, after `o` bits left free for others. -/
theorem packedAt {ver : Ver} (hv : 1 ≤ ver.major) {acc : Cell → Bool} {o : Nat} {P R : List Item} {res : Size} {s1 : Ser} {b : CellB Cell}
    (hok : ∀ i ∈ P ++ R, i.Ok) (hne : P ++ R ≠ []) (ho : ∀ i T', P ++ R = i :: T' → o + i.z.bits ≤ 1023)
    (hP : P ≠ [] → o + sumBits P ≤ 1023 ∧ sumRefs P = 0) (ha : Acct ver o (P ++ R) res)
    (hp : PutAll ver (P ++ R) ⟨⟨o, 0⟩, res, []⟩ s1) (hf : finalize acc s1 = .ok b) :
    ∃ x G, Pack ver b (P.map (·.e) ++ x) G ∧ x ++ G.flatten = R.map (·.e) ∧ (o + sumBits (P ++ R) ≤ 1023 → sumRefs (P ++ R) ≤ 3 → G = []) := by
  have hne2 : (P ++ R).map (·.e) ≠ [] := by
    intro h
    exact hne (List.map_eq_nil_iff.mp h)
  by_cases hsmall : o + sumBits (P ++ R) ≤ 1023 ∧ sumRefs (P ++ R) ≤ 3
  · obtain ⟨h1, h2⟩ := hsmall
    have one : b.WF ∧ b.contents = flatE ((P ++ R).map (·.e)) := by
      have hh := all_in_one hp (g := []) (Or.inl ⟨rfl, rfl⟩) h1 (by show 0 + _ ≤ _; omega) hne hok
      unfold finalize at hf
      generalize s1.stack = st at hh hf
      cases hh with
      | cons wf c r =>
        cases r
        injection hf with hf
        subst hf
        exact ⟨wf, c⟩
    obtain ⟨wf, c⟩ := one
    have c2 : b.contents = chainE ((P ++ R).map (·.e)) [] := c
    rw [List.map_append] at c2 hne2
    refine ⟨R.map (·.e), [], ⟨wf, c2, fun hm => ?_, hne2⟩, by simp, fun _ _ => rfl⟩
    have hb : b.refs.length = (flatE ((P ++ R).map (·.e))).2.length := by
      have : b.refs.length = b.contents.2.length := rfl
      rw [this, c]
    rw [hb]
    have : (flatE ((P ++ R).map (·.e))).2.length ≤ sumRefs (P ++ R) := sum_le (by
      rcases ha with ⟨_, _, ha⟩ | ⟨_, ha⟩ | ⟨ha, _⟩
      · exact ha hm
      · exact fun i hi => Nat.le_of_eq (ha i hi)
      · omega)
    omega
  · have hInv : Inv ver ⟨⟨o, 0⟩, res, []⟩ [] (P ++ R) ∧ (ver.major = 1 → ∀ i ∈ P ++ R, i.e.2.length = i.z.refs) := by
      rcases ha with ⟨h1, h2, _⟩ | ⟨hm, ha⟩ | ⟨hm, ha1, ha2⟩
      · exact absurd ⟨h1, h2⟩ hsmall
      · exact ⟨⟨.nil, trivial, fun _ => ⟨rfl, ho⟩, fun _ => ⟨by show 0 ≤ 3; omega, by intro g gs' hx; cases hx⟩, fun h => by omega⟩, fun _ => ha⟩
      · exact ⟨⟨.nil, trivial, fun _ => ⟨rfl, ho⟩, fun h => by omega, fun _ => ⟨ha1, ha2, fun _ => by show 0 ≤ 3; omega, by intro h; exact absurd h hne⟩⟩, fun h => by omega⟩
    obtain ⟨s0, hp1, hp2⟩ := hp.split
    obtain ⟨gs0, hi0, hfl0, _⟩ := Inv.all hv hp1 R hInv.1 (fun i hi => ⟨hok i (List.mem_append_left _ hi), fun hm => hInv.2 hm i (List.mem_append_left _ hi)⟩)
    rw [← List.append_nil R] at hi0
    obtain ⟨gs1, hi, hfl, hgr⟩ := Inv.all hv hp2 [] hi0 (fun i hi => ⟨hok i (List.mem_append_right _ hi), fun hm => hInv.2 hm i (List.mem_append_right _ hi)⟩)
    simp only [List.reverse_nil, List.flatten_nil, List.nil_append] at hfl0
    rw [hfl0] at hfl
    have hgs0 : P ≠ [] → gs0 = [P.map (·.e)] := by
      intro hPne
      obtain ⟨q1, q2⟩ := hP hPne
      have hh := all_in_one hp1 (g := []) (Or.inl ⟨rfl, rfl⟩) q1 (by show 0 + _ ≤ _; omega) hPne (fun i hi => hok i (List.mem_append_left _ hi))
      have l1 := hh.length
      have l2 := hi0.hold.length
      rw [l1] at l2
      cases gs0 with
      | nil => cases l2
      | cons g gs =>
        cases gs with
        | nil => simpa using hfl0
        | cons g2 gs => simp at l2
    have hhold := hi.hold
    unfold finalize at hf
    generalize s1.stack = st at hhold hf
    cases hhold with
    | nil =>
      simp only [List.reverse_nil, List.flatten_nil] at hfl
      rw [← List.map_append] at hfl
      exact absurd hfl.symm hne2
    | @cons b0 g0 bs gs wf c r =>
      change nest acc b0 bs = .ok b at hf
      have hpack : Pack ver b0 g0 [] := by
        refine ⟨wf, c, fun hm => ?_, linked_ne hi.linked⟩
        have : b0.refs.length = b0.contents.2.length := rfl
        rw [this, c, (hi.one hm).2 g0 gs rfl]
        exact (hi.one hm).1
      obtain ⟨g, G, k1, k2, k3⟩ := nest_inv r hf hi.linked hpack (by
        intro hm _ hgs
        cases gs with
        | nil => exact absurd rfl hgs
        | cons k gs => exact (hi.two hm).2.2.2 rfl g0 k gs rfl)
      have htot : g ++ G.flatten = P.map (·.e) ++ R.map (·.e) := by
        rw [k2, ← hfl]
        simp
      have hx : ∃ x, g = P.map (·.e) ++ x := by
        by_cases hPe : P = []
        · subst hPe; exact ⟨g, rfl⟩
        · obtain ⟨x, hx⟩ := hgr (P.map (·.e)) (by rw [hgs0 hPe]; rfl)
          rw [k3] at hx
          injection hx with hx
          exact ⟨x, hx⟩
      obtain ⟨x, rfl⟩ := hx
      refine ⟨x, G, k1, ?_, fun a b => absurd ⟨a, b⟩ hsmall⟩
      rw [List.append_assoc] at htot
      exact List.append_cancel_left htot

/-- What comes out of a serializer that begins with nothing. -/
theorem packed {ver : Ver} (hv : 1 ≤ ver.major) {acc : Cell → Bool} {T : List Item} {res : Size} {s1 : Ser} {b : CellB Cell} (hne : T ≠ [])
    (hok : ∀ i ∈ T, i.Ok) (ha : Acct ver 0 T res) (hp : PutAll ver T (Ser.start res) s1) (hf : finalize acc s1 = .ok b) :
    ∃ g G, Pack ver b g G ∧ g ++ G.flatten = T.map (·.e) ∧ (sumBits T ≤ 1023 → sumRefs T ≤ 3 → G = []) := by
  obtain ⟨x, G, h1, h2, h3⟩ := packedAt (P := []) (R := T) (o := 0) hv hok hne (fun i T' h => by
    have := (hok i (by rw [List.nil_append] at h; rw [h]; exact List.mem_cons_self)).bits
    omega) (fun h => absurd rfl h) ha hp hf
  exact ⟨x, G, h1, h2, fun a b => h3 (by rw [List.nil_append]; omega) (by rw [List.nil_append]; omega)⟩

end Abi
end Verif
