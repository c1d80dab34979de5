import Verif.AbiGood
/-!
# Serialized ABI values as leaves
-/
set_option linter.unusedVariables false
set_option linter.unusedSimpArgs false
namespace Verif
namespace Abi

def eBits (T : List Item) : Nat := (T.map (·.e.1.length)).sum
def eRefs (T : List Item) : Nat := (T.map (·.e.2.length)).sum

@[simp] theorem eBits_nil : eBits [] = 0 := rfl
@[simp] theorem eRefs_nil : eRefs [] = 0 := rfl
@[simp] theorem eBits_cons (i : Item) (T : List Item) : eBits (i :: T) = i.e.1.length + eBits T := by simp [eBits]
@[simp] theorem eRefs_cons (i : Item) (T : List Item) : eRefs (i :: T) = i.e.2.length + eRefs T := by simp [eRefs]
@[simp] theorem eBits_append (A B : List Item) : eBits (A ++ B) = eBits A + eBits B := by simp [eBits]
@[simp] theorem eRefs_append (A B : List Item) : eRefs (A ++ B) = eRefs A + eRefs B := by simp [eRefs]

theorem flatE_bits : ∀ T : List Item, (flatE (T.map (·.e))).1.length = eBits T
  | [] => rfl
  | i :: T => by simp only [List.map_cons, flatE, Enc.append_fst, List.length_append, eBits_cons, flatE_bits T]
theorem flatE_refs : ∀ T : List Item, (flatE (T.map (·.e))).2.length = eRefs T
  | [] => rfl
  | i :: T => by simp only [List.map_cons, flatE, Enc.append_snd, List.length_append, eRefs_cons, flatE_refs T]

/-- What the leaves of a value have to do with its sizes. -/
structure Sizes (ver : Ver) (mx ex sz : Size) (fixed : Nat) (noEmpty starts : Bool) (T : List Item) : Prop where
  ok : ∀ i ∈ T, i.Ok
  exactRefs : ex.refs = eRefs T
  exactBits : ex.bits ≤ eBits T
  maxBits : eBits T ≤ mx.bits
  maxRefs : eRefs T ≤ mx.refs
  declBits : sumBits T ≤ mx.bits + fixed
  declRefs : sumRefs T ≤ mx.refs
  resBits : sz.bits ≤ sumBits T
  resRefs : ver.useMax = true ∨ noEmpty = true → sz.refs = sumRefs T
  low : ver.useMax = false → ∀ i ∈ T, i.e.2.length ≤ i.z.refs
  same : ver.useMax = false → noEmpty = true → ∀ i ∈ T, i.e.2.length = i.z.refs
  single : ∀ i, T = [i] → i.e.1 = [] → mx.bits = 0
  head : starts = false → ∀ i r, T = i :: r → i.e.1 ≠ []

/-- A value as leaves. -/
structure Flat (ver : Ver) (v : Val) (T : List Item) : Prop where
  ne : T ≠ []
  sizes : Sizes ver v.type.max v.exact (v.size ver) v.type.fixed v.noEmptyMap v.type.startsRef T
  dec : ∀ part, Dec ver (load ver part v.type) v (T.map (·.e))

/-- All builders of the serializer are within their limits. -/
def Ready (s : Ser) : Prop := ∃ gs, Hold s.stack gs

theorem ready_start (z : Size) : Ready (Ser.start z) := ⟨[], .nil⟩

theorem put_ready {ver : Ver} {z : Size} {e : Leaf} {w : Wr Cell Unit} {s s1 : Ser} (hw : Writes w e) (h : put ver z w s = .ok s1) (hr : Ready s) :
    Ready s1 ∧ e.Fits := by
  obtain ⟨gs, hh⟩ := hr
  obtain ⟨_, _, _, hc⟩ := put_inv hw h hh
  have key : ∃ g gs', Hold s1.stack ((g ++ [e]) :: gs') := by
    rcases hc with ⟨_, _, ⟨_, hx⟩ | ⟨g, gs', _, hx⟩⟩ | ⟨_, _, ⟨_, hx⟩ | ⟨_, hx⟩⟩
    · exact ⟨[], [], hx⟩
    · exact ⟨g, gs', hx⟩
    · exact ⟨[], _, hx⟩
    · exact ⟨[], _, hx⟩
  obtain ⟨g, gs', hx⟩ := key
  refine ⟨⟨_, hx⟩, ?_⟩
  generalize s1.stack = st at hx
  cases hx with
  | cons wf c r =>
    have := wf.contents_fits
    rw [c, flatE_append, flatE_one] at this
    unfold Enc.Fits at this ⊢
    rw [Enc.append_fst, Enc.append_snd, List.length_append, List.length_append] at this
    omega

theorem PutAll.ready {ver : Ver} {T : List Item} {s s1 : Ser} (h : PutAll ver T s s1) (hr : Ready s) : Ready s1 := by
  induction h with
  | nil => exact hr
  | cons hw h r ih => exact ih (put_ready hw h hr).1

theorem useMax_major {ver : Ver} (h : ver.useMax = true) : 1 < ver.major := by
  unfold Ver.useMax at h
  simp only [decide_eq_true_eq] at h
  omega

theorem one_add (m : Size) : (⟨1, 0⟩ : Size) + m = ⟨1 + m.bits, m.refs⟩ := by
  show Size.mk _ _ = _
  rw [Nat.zero_add]

theorem optMax_type (t : Ty) : (Ty.optional t).max = optMax t := by
  simp only [Ty.max, optMax, one_add]

mutual
/-- Both ways to the size of a type agree. -/
theorem maxSize_type : ∀ v : Val, v.maxSize = v.type.max
  | .uint .. => rfl | .int .. => rfl | .varuint .. => rfl | .varint .. => rfl | .bool _ => rfl | .cell _ => rfl | .address _ => rfl | .bytes _ => rfl
  | .fixedBytes _ => rfl | .string _ => rfl | .token _ => rfl | .array .. => rfl | .fixedArray .. => rfl | .map .. => rfl
  | .absent t => by simp only [Val.maxSize, Val.type, Ty.max, one_add]
  | .present t _ => by simp only [Val.maxSize, Val.type, Ty.max, one_add]
  | .ref _ => rfl
  | .tuple l => by simp only [Val.maxSize, Val.type, Ty.max]; exact maxSize_types l
theorem maxSize_types : ∀ l : Items, l.maxSize = l.types.max
  | .nil => rfl
  | .cons _ v r => by simp only [Items.maxSize, Items.types, Tys.max]; rw [maxSize_type v, maxSize_types r]
end

theorem size_max {ver : Ver} (h : ver.useMax = true) (v : Val) : v.size ver = v.type.max := by
  unfold Val.size
  rw [if_pos h, maxSize_type]

theorem size_exact {ver : Ver} (h : ver.useMax = false) (v : Val) : v.size ver = v.exact := by
  unfold Val.size
  rw [if_neg (by rw [h]; decide)]

/-- A leaf without references. -/
theorem flat_bits {ver : Ver} {v : Val} {z : Size} {e : Leaf} (he : e.2 = []) (hb : e.1 ≠ []) (hz : z.refs = 0) (hz2 : z.bits ≤ 1023) (h1 : v.type.max.refs = 0)
    (h2 : v.exact.refs = 0) (h3 : v.exact.bits ≤ e.1.length) (h4 : e.1.length ≤ v.type.max.bits)
    (h5 : z.bits = if ver.useMax then v.type.max.bits else e.1.length) (hd : ∀ part, Dec ver (load ver part v.type) v [e]) : Flat ver v [⟨z, e⟩] := by
  have hr0 : e.2.length = 0 := by rw [he]; rfl
  refine ⟨by simp, ?_, hd⟩
  have hm : ∀ {P : Item → Prop}, P ⟨z, e⟩ → ∀ i ∈ [(⟨z, e⟩ : Item)], P i := by
    intro P hp i hi
    rw [List.mem_singleton] at hi
    rw [hi]; exact hp
  have hzb : z.bits ≤ v.type.max.bits := by rw [h5]; split <;> omega
  constructor
  · exact hm ⟨Or.inl hb, fun h => absurd h hb, hz2, by show z.refs ≤ 3; omega, by show e.1.length ≤ z.bits; rw [h5]; split <;> omega⟩
  · simp only [eRefs_cons, eRefs_nil]; omega
  · simp only [eBits_cons, eBits_nil]; omega
  · simp only [eBits_cons, eBits_nil]; omega
  · simp only [eRefs_cons, eRefs_nil]; omega
  · simp only [sumBits_cons, sumBits_nil]; omega
  · simp only [sumRefs_cons, sumRefs_nil]; omega
  · simp only [sumBits_cons, sumBits_nil]
    cases hu : ver.useMax with
    | true => rw [size_max hu, h5, if_pos hu]; omega
    | false => rw [size_exact hu, h5, if_neg (by rw [hu]; decide)]; omega
  · intro _
    simp only [sumRefs_cons, sumRefs_nil]
    cases hu : ver.useMax with
    | true => rw [size_max hu]; omega
    | false => rw [size_exact hu]; omega
  · intro _; exact hm (by show e.2.length ≤ z.refs; omega)
  · intro _ _; exact hm (by show e.2.length = z.refs; omega)
  · rintro i hi h; injection hi with hi _; subst hi; exact absurd h hb
  · rintro _ i r hi; injection hi with hi _; subst hi; exact hb

/-- A leaf that is a reference. -/
theorem flat_ref {ver : Ver} {v : Val} {c : Cell} (h1 : v.type.max = ⟨0, 1⟩) (h2 : v.exact = ⟨0, 1⟩) (h3 : v.type.startsRef = true)
    (hd : ∀ part, Dec ver (load ver part v.type) v [Enc.ref c]) : Flat ver v [⟨⟨0, 1⟩, Enc.ref c⟩] := by
  refine ⟨by simp, ?_, hd⟩
  have hm : ∀ {P : Item → Prop}, P ⟨⟨0, 1⟩, Enc.ref c⟩ → ∀ i ∈ [(⟨⟨0, 1⟩, Enc.ref c⟩ : Item)], P i := by
    intro P hp i hi
    rw [List.mem_singleton] at hi
    rw [hi]; exact hp
  have hs : v.size ver = ⟨0, 1⟩ := by
    cases hu : ver.useMax with
    | true => rw [size_max hu, h1]
    | false => rw [size_exact hu, h2]
  rw [h1, h2, h3, hs]
  constructor
  · exact hm ⟨Or.inr ⟨c, rfl⟩, fun _ => rfl, by show 0 ≤ 1023; omega, by show 1 ≤ 3; omega, Nat.zero_le _⟩
  · rfl
  · exact Nat.le_refl _
  · exact Nat.le_refl _
  · exact Nat.le_refl _
  · exact Nat.le_add_right _ _
  · exact Nat.le_refl _
  · exact Nat.le_refl _
  · intro _; rfl
  · intro _; exact hm (Nat.le_refl 1)
  · intro _ _; exact hm rfl
  · intro _ _ _; rfl
  · intro h; cases h

/-- The value written by `put`. -/
theorem leaf_one {ver : Ver} {v : Val} {z : Size} {e : Leaf} {w : Wr Cell Unit} {s s' : Ser} (hw : Writes w e) (h : put ver z w s = .ok s') (hr : Ready s)
    (hf : e.Fits → Flat ver v [⟨z, e⟩]) : ∃ T, Flat ver v T ∧ PutAll ver T s s' :=
  ⟨_, hf (put_ready hw h hr).2, PutAll.one hw h⟩

/-! ### Values in a serializer of their own -/

theorem acct_of {ver : Ver} (hv : 1 ≤ ver.major) {v : Val} {T : List Item} (hf : Flat ver v T) (hr : Regular ver v) : Acct ver 0 T (v.size ver) := by
  have hs := hf.sizes
  cases hu : ver.useMax with
  | true => exact Or.inr (Or.inr ⟨useMax_major hu, hs.resRefs (Or.inl hu), hs.resBits⟩)
  | false =>
    rcases hr with hr | hr | ⟨h1, h2⟩
    · rw [hu] at hr; cases hr
    · by_cases hm : ver.major = 1
      · exact Or.inr (Or.inl ⟨hm, hs.same hu hr⟩)
      · exact Or.inr (Or.inr ⟨by omega, hs.resRefs (Or.inr hr), hs.resBits⟩)
    · have := hs.declBits
      have := hs.declRefs
      exact Or.inl ⟨by omega, by omega, fun _ => hs.low hu⟩

theorem child_spec {ver : Ver} (hv : 1 ≤ ver.major) {acc : Cell → Bool} {v : Val} {b : CellB Cell}
    (ih : ∀ s s', Ready s → write acc ver v s = .ok s' → ∃ T, Flat ver v T ∧ PutAll ver T s s') (hr : Regular ver v)
    (h : child acc (v.size ver) (write acc ver v) = .ok b) : ∃ T g G, Flat ver v T ∧ Pack ver b g G ∧ g ++ G.flatten = T.map (·.e) ∧
      (v.type.max.bits + v.type.fixed ≤ 1023 → v.type.max.refs ≤ 3 → G = []) := by
  unfold child at h
  cases hw : write acc ver v (Ser.start (v.size ver)) with
  | error x => rw [hw] at h; cases h
  | ok s1 =>
    rw [hw] at h
    change finalize acc s1 = .ok b at h
    obtain ⟨T, hf, hp⟩ := ih _ _ (ready_start _) hw
    obtain ⟨g, G, k1, k2, k3⟩ := packed hv hf.ne hf.sizes.ok (acct_of hv hf hr) hp h
    refine ⟨T, g, G, hf, k1, k2, fun a c => k3 ?_ ?_⟩
    · have := hf.sizes.declBits; omega
    · have := hf.sizes.declRefs; omega

theorem flat_solid {ver : Ver} {v : Val} {T : List Item} (hf : Flat ver v T) : ∀ e ∈ T.map (·.e), Solid e := by
  intro e he
  obtain ⟨i, hi, rfl⟩ := List.mem_map.mp he
  exact (hf.sizes.ok i hi).solid

/-- Reading a value from its own cell. -/
theorem read_own {ver : Ver} {v : Val} {T : List Item} {b : CellB Cell} {g : List Leaf} {G : List (List Leaf)} (hf : Flat ver v T) (hp : Pack ver b g G)
    (he : g ++ G.flatten = T.map (·.e)) (part : Bool) : whole part (load ver part v.type true) (Sl.reader ⟨b.inner.bits, b.refs⟩) = .ok v := by
  obtain ⟨w1, w2⟩ := Tlb.reader_contents (b := b.inner.bits) (r := b.refs) hp.wf.contents_fits
  refine (hf.dec part).whole ⟨w1, w2.trans hp.contents, ?_, hp.link⟩ he part
  rw [he]
  exact flat_solid hf

/-- Reading a value from a cell that a leaf refers to. -/
theorem read_ref {ver : Ver} {v : Val} {T : List Item} {b : CellB Cell} {g : List Leaf} {G : List (List Leaf)} (hf : Flat ver v T) (hp : Pack ver b g G)
    (he : g ++ G.flatten = T.map (·.e)) (h1 : ver.major = 1 → v.type.startsRef = false) (h2 : 0 < v.type.max.bits) (part : Bool) :
    whole part (load ver part v.type true) (Sl.reader ⟨[], [Tlb.cellOf b.contents]⟩) = .ok v := by
  obtain ⟨w1, w2⟩ := Tlb.reader_contents (b := []) (r := [Tlb.cellOf b.contents]) ⟨Nat.zero_le _, by show 1 ≤ 4; omega⟩
  have hsol : ∀ e ∈ T.map (·.e), Solid e := flat_solid hf
  have hT : ∀ e r, g = e :: r → ∃ i T', T = i :: T' ∧ i.e = e := by
    rintro e r rfl
    cases T with
    | nil => exact absurd rfl hf.ne
    | cons i T' => simp only [List.cons_append, List.map_cons] at he; injection he with he _; exact ⟨i, T', rfl, he.symm⟩
  refine (hf.dec part).whole (g := []) (gs := g :: G) ⟨w1, w2.trans ?_, ?_, ?_⟩ (by simpa using he) part
  · show ([], [Tlb.cellOf b.contents]) = _
    rw [hp.contents]
    simp [chainE, flatE, Enc.ref]
  · intro e hm
    exact hsol e (by rw [← he]; simpa using hm)
  · refine ⟨hp.ne, fun hm hs => ?_, fun _ hG ho => ?_, ?_, ?_⟩
    · exfalso
      cases g with
      | nil => exact hs
      | cons e r =>
        obtain ⟨i, T', hTi, hie⟩ := hT e r rfl
        exact hf.sizes.head (h1 hm) i T' hTi (by rw [hie]; exact hs)
    · subst hG
      match g, ho with
      | [e], ho =>
        obtain ⟨i, T', hTi, hie⟩ := hT e [] rfl
        subst hTi
        have : T' = [] := by simp at he; exact he.2
        subst this
        have := hf.sizes.single i rfl (by rw [hie]; exact ho)
        omega
    · rw [← hp.contents]; exact hp.wf.contents_fits
    · rw [← hp.contents]; exact hp.link

/-- Reading an element or a map value from its leaf. -/
theorem read_leaf {ver : Ver} {acc : Cell → Bool} {n : Nat} {v : Val} {T : List Item} {b : CellB Cell} {g : List Leaf} {G : List (List Leaf)} {sl : Sl} (hf : Flat ver v T)
    (hp : Pack ver b g G) (he : g ++ G.flatten = T.map (·.e)) (hn : n ≤ 1011) (hi : Inside ver n v.type)
    (hl : leafValue acc (fitsLeaf n v.type.max.bits) b = .ok sl) (part : Bool) : whole part (load ver part v.type true) sl.reader = .ok v := by
  unfold leafValue at hl
  cases hx : fitsLeaf n v.type.max.bits with
  | true =>
    rw [hx, if_pos rfl] at hl
    injection hl with hl
    subst hl
    exact read_own hf hp he part
  | false =>
    rw [hx, if_neg (by decide)] at hl
    cases hb : build acc b with
    | error x => rw [hb] at hl; cases hl
    | ok c =>
      rw [hb] at hl
      injection hl with hl
      subst hl
      rw [build_ok hb]
      refine read_ref hf hp he (hi hx) ?_ part
      unfold fitsLeaf at hx
      rw [decide_eq_false_iff_not] at hx
      omega

end Abi
end Verif
