import Verif.Derive
/- Lemmas for `Verif.DeriveProps`. -/
set_option linter.unusedVariables false
set_option linter.unusedSimpArgs false
namespace Verif.Derive

/-! ### Tags -/

theorem storeTag_writes {t : TlbTag} (h : t.Good) : ∃ w, storeTag t = some w ∧ WritesAtomic w (Enc.bits t.code) := by
  obtain ⟨h1, h2, h3, h4⟩ := h
  unfold storeTag TlbTag.code
  rw [if_neg (by omega)]
  by_cases e1 : t.bits = 1
  · rw [if_pos e1]
    rw [e1] at h3
    refine ⟨_, rfl, ?_⟩
    rw [e1]
    by_cases hv : t.value = 0
    · rw [if_pos hv, hv]; exact Wr.writes_bit false
    · rw [if_neg hv, show t.value = 1 by omega]; exact Wr.writes_bit true
  rw [if_neg e1]
  by_cases e2 : t.bits ≤ 7
  · rw [if_pos e2]
    have : t.value % 2 ^ 8 = t.value := Nat.mod_eq_of_lt (Nat.lt_of_lt_of_le h3 (Nat.pow_le_pow_right (by decide) (by omega)))
    rw [this]
    exact ⟨_, rfl, Wr.writes_small _ (by omega)⟩
  rw [if_neg e2]
  by_cases e3 : t.bits = 8
  · rw [if_pos e3]
    rw [e3] at h3 ⊢
    rw [Nat.mod_eq_of_lt h3]
    exact ⟨_, rfl, Wr.writes_u8 h3⟩
  rw [if_neg e3]
  by_cases e4 : t.bits = 16
  · rw [if_pos e4]
    rw [e4] at h3 ⊢
    rw [Nat.mod_eq_of_lt h3]
    exact ⟨_, rfl, Wr.writes_u16 h3⟩
  rw [if_neg e4]
  by_cases e5 : t.bits = 32
  · rw [if_pos e5]
    rw [e5] at h3 ⊢
    exact ⟨_, rfl, Wr.writes_u32 h3⟩
  rw [if_neg e5]
  exact ⟨_, rfl, Wr.writes_uint _ h2⟩

theorem tagValue_eq {t : TlbTag} (h : t.Good) : tagValue t = t.value := by
  obtain ⟨h1, h2, h3, h4⟩ := h
  unfold tagValue
  by_cases e1 : t.bits = 1
  · rw [if_pos e1]
    rw [e1] at h3
    by_cases hv : t.value = 0
    · rw [hv]; rfl
    · rw [decide_eq_true hv]; show 1 = t.value; omega
  rw [if_neg e1]
  by_cases e2 : t.bits ≤ 8
  · rw [if_pos e2]
    exact Nat.mod_eq_of_lt (Nat.lt_of_lt_of_le h3 (Nat.pow_le_pow_right (by decide) (by omega)))
  rw [if_neg e2]
  by_cases e4 : t.bits = 16
  · rw [if_pos e4]
    rw [e4] at h3
    exact Nat.mod_eq_of_lt h3
  rw [if_neg e4]

theorem loadOp_loads {n : Nat} (h1 : 1 ≤ n) (h2 : n ≤ 64) :
    ∃ op, loadOp n = some op ∧ Loads op (fun t e => t < 2 ^ n ∧ e = Enc.bits (natBits n t)) := by
  unfold loadOp
  rw [if_neg (by omega)]
  by_cases e1 : n = 1
  · rw [if_pos e1]
    refine ⟨_, rfl, ?_⟩
    rw [e1]
    exact Tlb.tagRd_loads (n := 1) (Or.inl rfl)
  rw [if_neg e1]
  by_cases e2 : n ≤ 7
  · rw [if_pos e2]
    exact ⟨_, rfl, Loads.ofTakes (Rd.takes_small (by omega))⟩
  rw [if_neg e2]
  by_cases e3 : n = 8
  · rw [if_pos e3, e3]; exact ⟨_, rfl, Loads.ofTakes Rd.takes_u8⟩
  rw [if_neg e3]
  by_cases e4 : n = 16
  · rw [if_pos e4, e4]; exact ⟨_, rfl, Loads.ofTakes Rd.takes_u16⟩
  rw [if_neg e4]
  by_cases e5 : n = 32
  · rw [if_pos e5, e5]; exact ⟨_, rfl, Loads.ofTakes Rd.takes_u32⟩
  rw [if_neg e5]
  exact ⟨_, rfl, Loads.ofTakes (Rd.takes_uint h2)⟩

theorem firstArm_none {u : Nat} : ∀ {l : List Nat} {i : Nat}, firstArm u l i = none → u ∉ l
  | [], _, _ => by simp
  | a :: as, i, h => by
    unfold firstArm at h
    split at h
    · cases h
    · rename_i hu
      intro hm
      rcases List.mem_cons.1 hm with hm | hm
      · exact hu hm
      · exact firstArm_none h hm

theorem firstArm_some {u : Nat} : ∀ {l : List Nat} {i k : Nat}, firstArm u l i = some k → ∃ j, k = i + j ∧ l[j]? = some u
  | a :: as, i, k, h => by
    unfold firstArm at h
    split at h
    · rename_i hu
      injection h with h
      exact ⟨0, h.symm, by rw [hu]; rfl⟩
    · obtain ⟨j, h1, h2⟩ := firstArm_some h
      exact ⟨j + 1, by omega, h2⟩

theorem nodup_get {l : List Nat} (h : l.Nodup) : ∀ {i j : Nat} {u : Nat}, l[i]? = some u → l[j]? = some u → i = j := by
  induction l with
  | nil => intro i j u h1; cases h1
  | cons a as ih =>
    intro i j u h1 h2
    have hn := List.nodup_cons.1 h
    cases i with
    | zero =>
      cases j with
      | zero => rfl
      | succ j =>
        rw [List.getElem?_cons_zero] at h1
        rw [List.getElem?_cons_succ] at h2
        injection h1 with h1
        rw [h1] at hn
        exact absurd (List.mem_of_getElem? h2) hn.1
    | succ i =>
      cases j with
      | zero =>
        rw [List.getElem?_cons_zero] at h2
        rw [List.getElem?_cons_succ] at h1
        injection h2 with h2
        rw [h2] at hn
        exact absurd (List.mem_of_getElem? h1) hn.1
      | succ j =>
        rw [List.getElem?_cons_succ] at h1 h2
        rw [ih hn.2 h1 h2]

theorem loadTags_loads {ts : List TlbTag} (hne : ts ≠ []) (hw : sameWidth ts = true) (hg : ∀ t ∈ ts, t.Good)
    (hd : (ts.map TlbTag.value).Nodup) :
    ∃ l, loadTags ts = some l ∧ Loads l (fun k e => ∃ t, ts[k]? = some t ∧ e = Enc.bits t.code) := by
  match ts, hne with
  | first :: rest, _ =>
    have hf := hg first (List.mem_cons_self ..)
    obtain ⟨op, ho, hl⟩ := loadOp_loads hf.1 hf.2.1
    unfold loadTags
    dsimp only
    rw [ho]
    have hfil : (rest.filter fun t => t.bits ≠ 0) = rest := by
      apply List.filter_eq_self.2
      intro t ht
      have := (hg t (List.mem_cons_of_mem _ ht)).1
      exact decide_eq_true (by omega)
    rw [hfil]
    have hvals : (tagValue first :: rest.map tagValue) = (first :: rest).map TlbTag.value := by
      rw [← List.map_cons]
      exact List.map_congr_left fun t ht => tagValue_eq (hg t ht)
    rw [hvals]
    refine ⟨_, rfl, ?_⟩
    have hbits : ∀ t ∈ first :: rest, t.bits = first.bits := by
      intro t ht
      rcases List.mem_cons.1 ht with rfl | ht
      · rfl
      · unfold sameWidth at hw
        exact eq_of_beq (List.all_eq_true.1 hw t ht)
    refine (hl.bind (R := fun u k e => ((first :: rest).map TlbTag.value)[k]? = some u ∧ e = Enc.nil) (fun u e _ => ?_)).iff fun k e => ?_
    · cases ha : firstArm u ((first :: rest).map TlbTag.value) 0 with
      | none =>
        refine (Loads.fail (by decide) (by decide)).iff fun v e => ⟨fun h => h.elim, fun h => ?_⟩
        exact firstArm_none ha (List.mem_of_getElem? h.1)
      | some i =>
        obtain ⟨j, h1, h2⟩ := firstArm_some ha
        rw [Nat.zero_add] at h1
        rw [← h1] at h2
        refine (Loads.pure i).iff fun v e => ⟨?_, ?_⟩
        · rintro ⟨rfl, h⟩; exact ⟨h2, h⟩
        · rintro ⟨h, h'⟩; exact ⟨nodup_get hd h h2, h'⟩
    · constructor
      · rintro ⟨u, e1, e2, ⟨_, rfl⟩, ⟨h2, rfl⟩, rfl⟩
        rw [List.getElem?_map] at h2
        cases ht : (first :: rest)[k]? with
        | none => rw [ht] at h2; cases h2
        | some t =>
          rw [ht] at h2
          injection h2 with h2
          refine ⟨t, rfl, ?_⟩
          rw [Enc.append_nil]
          unfold TlbTag.code
          rw [h2, hbits t (List.mem_of_getElem? ht)]
      · rintro ⟨t, ht, rfl⟩
        have hm := List.mem_of_getElem? ht
        refine ⟨t.value, _, Enc.nil, ⟨?_, rfl⟩, ⟨?_, rfl⟩, ?_⟩
        · rw [← hbits t hm]; exact (hg t hm).2.2.1
        · rw [List.getElem?_map, ht]; rfl
        · rw [Enc.append_nil, ← hbits t hm]; rfl

theorem loadTag_loads {t : TlbTag} (h : t.Good) : ∃ l, loadTag t = some l ∧ Loads l (fun _ e => e = Enc.bits t.code) := by
  obtain ⟨op, ho, hl⟩ := loadOp_loads h.1 h.2.1
  unfold loadTag
  rw [ho, tagValue_eq h]
  refine ⟨_, rfl, ?_⟩
  refine (hl.bind (R := fun u _ e => u = t.value ∧ e = Enc.nil) (fun u e _ => ?_)).iff fun x e => ?_
  · by_cases hu : u = t.value
    · rw [decide_eq_true hu]
      exact (Loads.pure ()).iff fun v e => ⟨fun h => ⟨hu, h.2⟩, fun h => ⟨rfl, h.2⟩⟩
    · rw [decide_eq_false hu]
      exact (Loads.fail (by decide) (by decide)).iff fun v e => ⟨fun h => h.elim, fun h => hu h.1⟩
  · constructor
    · rintro ⟨u, e1, e2, ⟨_, rfl⟩, ⟨rfl, rfl⟩, rfl⟩; rw [Enc.append_nil]; rfl
    · rintro rfl; exact ⟨t.value, _, Enc.nil, ⟨h.2.2.1, rfl⟩, ⟨rfl, rfl⟩, by rw [Enc.append_nil]; rfl⟩

/-! ### Fields -/

theorem since_lt {n : Nat} : ∀ {fs : List Field}, ((sinces fs).all fun s => s < n) = true → ∀ f ∈ fs, ∀ s, f.since = some s → s < n
  | [], _, f, hf, _, _ => by cases hf
  | g :: gs, h, f, hf, s, hs => by
    unfold sinces at h
    rcases List.mem_cons.1 hf with rfl | hf
    · rw [hs] at h
      dsimp only at h
      rw [List.all_cons, Bool.and_eq_true] at h
      exact of_decide_eq_true h.1
    · cases hg : g.since with
      | none => rw [hg] at h; exact since_lt h f hf s hs
      | some x =>
        rw [hg] at h
        dsimp only at h
        rw [List.all_cons, Bool.and_eq_true] at h
        exact since_lt h.2 f hf s hs

theorem sinces_nil : ∀ {fs : List Field}, sinces fs = [] → ∀ f ∈ fs, f.since = none
  | g :: gs, h, f, hf => by
    unfold sinces at h
    cases hg : g.since with
    | some x => rw [hg] at h; cases h
    | none =>
      rw [hg] at h
      rcases List.mem_cons.1 hf with rfl | hf
      · exact hg
      · exact sinces_nil h f hf

theorem storeField_in {k : Nat} {f : Field} (h : f.from ≤ k) (v : f.α) : storeField (some k) f v = f.codec.store v := by
  unfold storeField
  unfold Field.from at h
  cases hs : f.since with
  | none => rfl
  | some s => rw [hs] at h; dsimp only; rw [if_pos (show k ≥ s from h)]

theorem storeField_out {k : Nat} {f : Field} (h : ¬ f.from ≤ k) (v : f.α) : storeField (some k) f v = pure () := by
  unfold storeField
  unfold Field.from at h
  cases hs : f.since with
  | none => rw [hs] at h; exact absurd (Nat.zero_le _) h
  | some s => rw [hs] at h; dsimp only; rw [if_neg (show ¬ k ≥ s from h)]

theorem storeField_none (f : Field) (v : f.α) : storeField none f v = f.codec.store v := by
  unfold storeField; cases f.since <;> rfl

theorem loadField_in {k : Nat} {f : Field} (h : f.from ≤ k) : loadField (some k) f = f.codec.load := by
  unfold loadField
  unfold Field.from at h
  cases hs : f.since with
  | none => rfl
  | some s => rw [hs] at h; dsimp only; rw [if_pos (show k ≥ s from h)]

theorem loadField_out {k : Nat} {f : Field} (h : ¬ f.from ≤ k) : loadField (some k) f = pure f.dflt := by
  unfold loadField
  unfold Field.from at h
  cases hs : f.since with
  | none => rw [hs] at h; exact absurd (Nat.zero_le _) h
  | some s => rw [hs] at h; dsimp only; rw [if_neg (show ¬ k ≥ s from h)]

theorem loadField_none (f : Field) : loadField none f = f.codec.load := by
  unfold loadField; cases f.since <;> rfl

/-- Without the variable all fields are stored. -/
theorem storeFields_none {k : Nat} : ∀ {fs : List Field} (h : ∀ f ∈ fs, f.from ≤ k) (v : Vals fs),
    storeFields none fs v = storeFields (some k) fs v
  | [], _, _ => rfl
  | f :: fs, h, (v, vs) => by
    have ih := storeFields_none (fun g hg => h g (List.mem_cons_of_mem _ hg)) vs
    unfold storeFields
    rw [ih, storeField_none, storeField_in (h f (List.mem_cons_self ..))]

theorem loadFields_none {k : Nat} : ∀ {fs : List Field} (h : ∀ f ∈ fs, f.from ≤ k), loadFields none fs = loadFields (some k) fs
  | [], _ => rfl
  | f :: fs, h => by
    have ih := loadFields_none (fun g hg => h g (List.mem_cons_of_mem _ hg))
    unfold loadFields
    rw [ih, loadField_none, loadField_in (h f (List.mem_cons_self ..))]

theorem storeFields_writes {k : Nat} : ∀ {fs : List Field} (hs : ∀ f ∈ fs, f.codec.Sound) (v : Vals fs), FieldsOk k fs v →
    Writes (storeFields (some k) fs v) (fieldsEnc k fs v)
  | [], _, _, _ => Writes.pure
  | f :: fs, hs, (v, vs), ho => by
    have ih := storeFields_writes (fun g hg => hs g (List.mem_cons_of_mem _ hg)) vs ho.2
    have hf := hs f (List.mem_cons_self ..)
    unfold storeFields fieldsEnc
    by_cases hk : f.from ≤ k
    · rw [if_pos hk, storeField_in hk]
      exact (hf.st.writes v (ho.1 hk)).seq ih
    · rw [if_neg hk, storeField_out hk, Prog.pure_bind']
      exact ih

theorem fieldsEnc_canon {k : Nat} : ∀ {fs : List Field} (hs : ∀ f ∈ fs, f.codec.Sound) (v : Vals fs), FieldsOk k fs v →
    DefaultsAbove k fs v → fieldsR k fs v (fieldsEnc k fs v)
  | [], _, _, _, _ => rfl
  | f :: fs, hs, (v, vs), ho, hd => by
    have ih := fieldsEnc_canon (fun g hg => hs g (List.mem_cons_of_mem _ hg)) vs ho.2 hd.2
    have hf := hs f (List.mem_cons_self ..)
    unfold fieldsR fieldsEnc
    by_cases hk : f.from ≤ k
    · rw [if_pos hk, if_pos hk]
      exact ⟨_, _, hf.st.canon v (ho.1 hk), ih, rfl⟩
    · rw [if_neg hk, if_neg hk]
      exact ⟨hd.1 (Nat.lt_of_not_le hk), ih⟩

theorem fieldsR_in {k : Nat} {f : Field} (h : f.from ≤ k) (fs : List Field) (v : f.α) (vs : Vals fs) (e : Enc Cell) :
    fieldsR k (f :: fs) (v, vs) e ↔ (f.codec.R v ⬝ fieldsR k fs vs) e := by
  rw [show fieldsR k (f :: fs) (v, vs) = if f.from ≤ k then f.codec.R v ⬝ fieldsR k fs vs else fun e => v = f.dflt ∧ fieldsR k fs vs e from rfl,
    if_pos h]

theorem fieldsR_out {k : Nat} {f : Field} (h : ¬ f.from ≤ k) (fs : List Field) (v : f.α) (vs : Vals fs) (e : Enc Cell) :
    fieldsR k (f :: fs) (v, vs) e ↔ v = f.dflt ∧ fieldsR k fs vs e := by
  rw [show fieldsR k (f :: fs) (v, vs) = if f.from ≤ k then f.codec.R v ⬝ fieldsR k fs vs else fun e => v = f.dflt ∧ fieldsR k fs vs e from rfl,
    if_neg h]

theorem loadFields_loads {k : Nat} : ∀ {fs : List Field} (hs : ∀ f ∈ fs, f.codec.Sound), Loads (loadFields (some k) fs) (fieldsR k fs)
  | [], _ => (Loads.pure ()).iff fun v e => ⟨fun h => h.2, fun h => ⟨rfl, h⟩⟩
  | f :: fs, hs => by
    have ih := loadFields_loads (k := k) (fun g hg => hs g (List.mem_cons_of_mem _ hg))
    have hf := hs f (List.mem_cons_self ..)
    have rest : ∀ v : f.α, Loads (loadFields (some k) fs >>= fun vs => (Pure.pure (v, vs) : Rd Cell (Vals (f :: fs))))
        (fun w e => w.1 = v ∧ fieldsR k fs w.2 e) := fun v =>
      (ih.map fun vs => ((v, vs) : Vals (f :: fs))).iff fun w e =>
        ⟨by rintro ⟨vs, rfl, h⟩; exact ⟨rfl, h⟩, by rintro ⟨rfl, h⟩; exact ⟨w.2, rfl, h⟩⟩
    unfold loadFields
    by_cases hk : f.from ≤ k
    · rw [loadField_in hk]
      refine (hf.ld.bind (R := fun v w e => w.1 = v ∧ fieldsR k fs w.2 e) (fun v _ _ => rest v)).iff fun w e => ?_
      obtain ⟨v, vs⟩ := w
      rw [fieldsR_in hk]
      constructor
      · rintro ⟨a, e1, e2, h1, ⟨rfl, h2⟩, rfl⟩; exact ⟨e1, e2, h1, h2, rfl⟩
      · rintro ⟨e1, e2, h1, h2, rfl⟩; exact ⟨v, e1, e2, h1, ⟨rfl, h2⟩, rfl⟩
    · rw [loadField_out hk, Prog.pure_bind']
      refine (rest f.dflt).iff fun w e => ?_
      obtain ⟨v, vs⟩ := w
      rw [fieldsR_out hk]

/-! ### The version -/

theorem guards_eq : ∀ (fs : List Field) (v : Vals fs) (acc : Nat), guards fs v acc = max acc (oldest fs v)
  | [], _, acc => by show acc = max acc 0; omega
  | f :: fs, (v, vs), acc => by
    unfold guards oldest Field.from
    cases hs : f.since with
    | none =>
      dsimp only
      rw [guards_eq fs vs]
      by_cases h : v = f.dflt
      · rw [if_pos h]
      · rw [if_neg h]; show _ = max acc (max 0 _); omega
    | some s =>
      dsimp only
      rw [guards_eq fs vs]
      by_cases h : v = f.dflt
      · rw [if_pos h, if_neg (by exact fun h' => h' h)]
      · rw [if_neg h, if_pos h]; show _ = max acc (max s _); omega

theorem tagVersion_eq (fs : List Field) (v : Vals fs) : tagVersion fs v = oldest fs v := by
  unfold tagVersion; rw [guards_eq]; omega

theorem oldest_mem : ∀ (fs : List Field) (v : Vals fs), oldest fs v = 0 ∨ oldest fs v ∈ sinces fs
  | [], _ => Or.inl rfl
  | f :: fs, (v, vs) => by
    have ih := oldest_mem fs vs
    unfold oldest sinces Field.from
    cases hs : f.since with
    | none =>
      dsimp only
      by_cases h : v = f.dflt
      · rw [if_pos h]; exact ih
      · rw [if_neg h, show max (Option.getD none 0) (oldest fs vs) = oldest fs vs by show max 0 _ = _; omega]; exact ih
    | some s =>
      dsimp only
      by_cases h : v = f.dflt
      · rw [if_pos h]
        exact ih.imp_right fun h => List.mem_cons_of_mem _ h
      · rw [if_neg h]
        show max s _ = 0 ∨ max s _ ∈ _
        rcases Nat.le_total (oldest fs vs) s with hl | hl
        · rw [Nat.max_eq_left hl]; exact Or.inr (List.mem_cons_self ..)
        · rw [Nat.max_eq_right hl]; exact ih.imp_right fun h => List.mem_cons_of_mem _ h

theorem defaultsAbove_iff {k : Nat} : ∀ {fs : List Field} {v : Vals fs}, DefaultsAbove k fs v ↔ oldest fs v ≤ k
  | [], _ => ⟨fun _ => Nat.zero_le _, fun _ => trivial⟩
  | f :: fs, (v, vs) => by
    have ih := defaultsAbove_iff (k := k) (fs := fs) (v := vs)
    unfold DefaultsAbove oldest
    rw [ih]
    by_cases h : v = f.dflt
    · rw [if_pos h]; exact ⟨fun h' => h'.2, fun h' => ⟨fun _ => h, h'⟩⟩
    · rw [if_neg h]
      constructor
      · rintro ⟨h1, h2⟩
        have : ¬ k < f.from := fun h' => h (h1 h')
        omega
      · intro h'
        exact ⟨fun h2 => by omega, by omega⟩

/-! ### Structs -/

theorem from_zero {S : Struct} (ha : S.accepted = true) (hc : S.tags.count ≤ 1) : ∀ f ∈ S.fields, f.from ≤ 0 := by
  intro f hf
  unfold Struct.accepted at ha
  rw [Bool.and_eq_true] at ha
  unfold Field.from
  cases hs : f.since with
  | none => exact Nat.le_refl _
  | some s =>
    have := since_lt ha.1 f hf s hs
    show s ≤ 0
    omega

theorem oldest_lt {S : Struct} (ha : S.accepted = true) {ts : List TlbTag} (ht : S.tags = .multiple ts) (v : Vals S.fields) :
    oldest S.fields v < ts.length := by
  unfold Struct.accepted at ha
  rw [Bool.and_eq_true] at ha
  obtain ⟨h1, h2⟩ := ha
  rw [ht] at h1 h2
  rw [Bool.and_eq_true, Bool.and_eq_true] at h2
  rcases oldest_mem S.fields v with h | h
  · rw [h]
    have := h2.1.2
    match ts, this with
    | _ :: _, _ => exact Nat.succ_pos _
  · exact of_decide_eq_true (List.all_eq_true.1 h1 _ h)

theorem head_multiple {S : Struct} (hg : S.Good) {ts : List TlbTag} (ht : S.tags = .multiple ts) (v : Vals S.fields) {t : TlbTag}
    (hk : ts[oldest S.fields v]? = some t) :
    ∃ ver w, storeHead S v = (ver, some w) ∧ WritesAtomic w (Enc.bits t.code) ∧
      storeFields ver S.fields v = storeFields (some (oldest S.fields v)) S.fields v := by
  have hgood : ∀ t ∈ ts, t.Good := by have := hg.tags; rw [ht] at this; exact this
  have hw := storeTag_writes (hgood t (List.mem_of_getElem? hk))
  obtain ⟨w, hw1, hw2⟩ := hw
  unfold storeHead
  rw [ht]
  dsimp only
  unfold storeTags
  match ts, hk, hgood with
  | first :: rest, hk, hgood =>
    dsimp only
    obtain ⟨wf, hf1, hf2⟩ := storeTag_writes (hgood first (List.mem_cons_self ..))
    by_cases hsi : sinces S.fields = []
    · rw [if_pos hsi]
      have h0 : oldest S.fields v = 0 := by
        rcases oldest_mem S.fields v with h | h
        · exact h
        · rw [hsi] at h; cases h
      rw [h0] at hk ⊢
      rw [List.getElem?_cons_zero] at hk
      injection hk with hk
      rw [hk]
      refine ⟨none, w, by rw [hw1], hw2, storeFields_none (fun f hf => ?_) v⟩
      unfold Field.from
      rw [sinces_nil hsi f hf]
      exact Nat.le_refl _
    · rw [if_neg hsi, hf1]
      dsimp only
      rw [tagVersion_eq]
      refine ⟨_, _, rfl, ?_, rfl⟩
      by_cases h0 : oldest S.fields v = 0
      · rw [if_neg (by exact fun h => h.1 h0)]
        rw [h0, List.getElem?_cons_zero] at hk
        injection hk with hk
        rw [← hk]; exact hf2
      · rw [if_pos ⟨h0, (oldest_mem S.fields v).resolve_left h0⟩, hk]
        show WritesAtomic ((storeTag t).getD wf) _
        rw [hw1]
        exact hw2

/-- What a good struct stores for a valid value. -/
theorem store_writes {S : Struct} (hg : S.Good) (v : Vals S.fields) (hv : S.codec.ok v) : Writes (S.store v) (S.codec.enc v) := by
  obtain ⟨hval, hok⟩ := hv
  have hcheck : storeCheck S v = pure () := by
    unfold storeCheck
    cases hc : S.valid with
    | none => rfl
    | some c => dsimp only; rw [hval c hc]; rfl
  have main : ∀ (ver : Option Nat) (tag : Option (Wr Cell Unit)) (k : Nat) (e : Enc Cell), storeHead S v = (ver, tag) →
      Writes (orNothing tag) e → storeFields ver S.fields v = storeFields (some k) S.fields v → FieldsOk k S.fields v →
      Writes (S.store v) (e ++ fieldsEnc k S.fields v) := by
    intro ver tag k e h1 h2 h3 h4
    unfold Struct.store
    rw [h1]
    dsimp only
    by_cases hu : S.unit = true
    · rw [if_pos hu]
      have hn : fieldsEnc k S.fields v = Enc.nil := by
        have := hg.unit hu
        exact (show ∀ (fs : List Field) (v : Vals fs), fs = [] → fieldsEnc k fs v = Enc.nil from
          fun fs v h => by subst h; rfl) _ v this
      rw [hn, Enc.append_nil]
      exact h2
    · rw [if_neg hu, hcheck, Prog.pure_bind', h3]
      exact h2.seq (storeFields_writes hg.fields v h4)
  show Writes (S.store v) (S.encAt _ v)
  cases ht : S.tags with
  | none =>
    rw [ht] at hok
    have := main none none 0 Enc.nil (by unfold storeHead; rw [ht]) Writes.pure
      (storeFields_none (from_zero hg.accepted (by rw [ht]; exact Nat.zero_le _)) v) hok
    unfold Struct.encAt
    rw [ht]
    rw [Enc.nil_append] at this
    exact this
  | single t =>
    rw [ht] at hok
    obtain ⟨w, h1, h2⟩ := storeTag_writes (hg.tags t (by rw [ht]; exact List.mem_singleton.2 rfl))
    have := main none (some w) 0 _ (by unfold storeHead; rw [ht]; dsimp only; rw [h1]) h2.writes
      (storeFields_none (from_zero hg.accepted (by rw [ht]; exact Nat.le_refl _)) v) hok
    unfold Struct.encAt
    rw [ht]
    exact this
  | multiple ts =>
    rw [ht] at hok
    have hl := oldest_lt hg.accepted ht v
    have hk : ts[oldest S.fields v]? = some ts[oldest S.fields v] := List.getElem?_eq_getElem hl
    obtain ⟨ver, w, h1, h2, h3⟩ := head_multiple hg ht v hk
    have := main ver (some w) _ _ h1 h2.writes h3 hok
    unfold Struct.encAt
    rw [ht]
    dsimp only
    rw [hk]
    exact this

theorem store_canon {S : Struct} (hg : S.Good) (v : Vals S.fields) (hv : S.codec.ok v) : S.R v (S.codec.enc v) := by
  obtain ⟨hval, hok⟩ := hv
  refine ⟨hval, ?_⟩
  show match S.tags with
    | .none => fieldsR 0 S.fields v (S.encAt _ v)
    | .single t => (Enc.Lit t.code ⬝ fieldsR 0 S.fields v) (S.encAt _ v)
    | .multiple ts => ∃ k t, ts[k]? = some t ∧ (Enc.Lit t.code ⬝ fieldsR k S.fields v) (S.encAt _ v)
  have hz : ∀ (h : ∀ f ∈ S.fields, f.from ≤ 0), DefaultsAbove 0 S.fields v := by
    intro h
    rw [defaultsAbove_iff]
    rcases oldest_mem S.fields v with h' | h'
    · omega
    · have : ∀ (fs : List Field), (∀ f ∈ fs, f.from ≤ 0) → ∀ s ∈ sinces fs, s ≤ 0 := by
        intro fs
        induction fs with
        | nil => intro _ s hs; cases hs
        | cons f fs ih =>
          intro h s hs
          have ih := ih fun g hg => h g (List.mem_cons_of_mem _ hg)
          have hf := h f (List.mem_cons_self ..)
          unfold Field.from at hf
          unfold sinces at hs
          cases hsi : f.since with
          | none => rw [hsi] at hs; exact ih s hs
          | some x =>
            rw [hsi] at hs hf
            rcases List.mem_cons.1 hs with rfl | hs
            · exact hf
            · exact ih s hs
      exact this _ h _ h'
  cases ht : S.tags with
  | none =>
    rw [ht] at hok
    unfold Struct.encAt
    rw [ht]
    exact fieldsEnc_canon hg.fields v hok (hz (from_zero hg.accepted (by rw [ht]; exact Nat.zero_le _)))
  | single t =>
    rw [ht] at hok
    unfold Struct.encAt
    rw [ht]
    exact ⟨_, _, rfl, fieldsEnc_canon hg.fields v hok (hz (from_zero hg.accepted (by rw [ht]; exact Nat.le_refl _))), rfl⟩
  | multiple ts =>
    rw [ht] at hok
    have hl := oldest_lt hg.accepted ht v
    have hk : ts[oldest S.fields v]? = some ts[oldest S.fields v] := List.getElem?_eq_getElem hl
    unfold Struct.encAt
    rw [ht]
    dsimp only
    rw [hk]
    exact ⟨oldest S.fields v, _, hk, _, _, rfl, fieldsEnc_canon hg.fields v hok (defaultsAbove_iff.2 (Nat.le_refl _)), rfl⟩

theorem load_loads {S : Struct} (hg : S.Good) : Loads S.load S.R := by
  -- the grammar without the validation
  let P : Vals S.fields → Enc Cell → Prop := fun v e => match S.tags with
    | .none => fieldsR 0 S.fields v e
    | .single t => (Enc.Lit t.code ⬝ fieldsR 0 S.fields v) e
    | .multiple ts => ∃ k t, ts[k]? = some t ∧ (Enc.Lit t.code ⬝ fieldsR k S.fields v) e
  have body : Loads (loadHead S >>= fun ver => loadFields ver S.fields) P := by
    show Loads _ (fun v e => match S.tags with
    | .none => fieldsR 0 S.fields v e
    | .single t => (Enc.Lit t.code ⬝ fieldsR 0 S.fields v) e
    | .multiple ts => ∃ k t, ts[k]? = some t ∧ (Enc.Lit t.code ⬝ fieldsR k S.fields v) e)
    unfold loadHead
    have ha := hg.accepted
    have htags := hg.tags
    have hd := hg.distinct
    cases ht : S.tags with
    | none =>
      rw [Prog.pure_bind', loadFields_none (from_zero ha (by rw [ht]; exact Nat.zero_le _))]
      exact loadFields_loads hg.fields
    | single t =>
      obtain ⟨l, h1, h2⟩ := loadTag_loads (htags t (by rw [ht]; exact List.mem_singleton.2 rfl))
      dsimp only
      rw [h1]
      dsimp only
      rw [Prog.bind_assoc']
      refine (h2.bind (R := fun _ v e => fieldsR 0 S.fields v e) (fun u _ _ => ?_)).iff fun v e => ?_
      · rw [Prog.pure_bind', loadFields_none (from_zero ha (by rw [ht]; exact Nat.le_refl _))]
        exact loadFields_loads hg.fields
      · exact ⟨by rintro ⟨_, h⟩; exact h, fun h => ⟨(), h⟩⟩
    | multiple ts =>
      rw [ht] at htags hd
      have ha2 := ha
      unfold Struct.accepted at ha2
      rw [ht] at ha2
      simp only [Bool.and_eq_true] at ha2
      obtain ⟨l, h1, h2⟩ := loadTags_loads (ts := ts) (by rintro rfl; exact absurd ha2.2.1.2 (by decide)) ha2.2.1.1 htags hd
      dsimp only
      rw [h1]
      dsimp only
      rw [Prog.bind_assoc']
      refine (h2.bind (R := fun k v e => fieldsR k S.fields v e) (fun k _ _ => ?_)).iff fun v e => ?_
      · rw [Prog.pure_bind']
        exact loadFields_loads hg.fields
      · constructor
        · rintro ⟨k, e1, e2, ⟨t, h1, rfl⟩, h2, rfl⟩; exact ⟨k, t, h1, _, e2, rfl, h2, rfl⟩
        · rintro ⟨k, t, h1, _, e2, rfl, h2, rfl⟩; exact ⟨k, _, e2, ⟨t, h1, rfl⟩, h2, rfl⟩
  unfold Struct.load
  rw [← Prog.bind_assoc']
  cases hv : S.valid with
  | none =>
    refine (body.map id).iff fun v e => ?_
    constructor
    · rintro ⟨a, rfl, h⟩; exact ⟨fun c hc => (by rw [hv] at hc; cases hc), h⟩
    · rintro ⟨_, h⟩; exact ⟨v, rfl, h⟩
  | some c =>
    refine (body.check c (by decide) (by decide)).iff fun v e => ?_
    constructor
    · rintro ⟨h, hc⟩; exact ⟨fun c' hc' => (by rw [hv] at hc'; cases hc'; exact hc), h⟩
    · rintro ⟨h1, h⟩; exact ⟨h, h1 c hv⟩

/-! ### Versions, texts -/

theorem Extends.fieldsR {k j : Nat} (hj : j ≤ k) {fs fs' : List Field} {v : Vals fs} {w : Vals fs'} (h : Extends k fs v fs' w) :
    ∀ e, fieldsR j fs' w e → Derive.fieldsR j fs v e := by
  induction h with
  | nil => exact fun e h => h
  | @keep f x fs v fs' w hf h ih =>
    intro e he
    by_cases hk : f.from ≤ j
    · rw [fieldsR_in hk] at he ⊢
      obtain ⟨e1, e2, h1, h2, rfl⟩ := he
      exact ⟨e1, e2, h1, ih _ h2, rfl⟩
    · rw [fieldsR_out hk] at he ⊢
      exact ⟨he.1, ih _ he.2⟩
  | @new f fs v fs' w hf h ih =>
    intro e he
    rw [fieldsR_out (by omega)]
    exact ⟨rfl, ih _ he⟩

theorem Extends.fieldsEnc {k j : Nat} (hj : j ≤ k) {fs fs' : List Field} {v : Vals fs} {w : Vals fs'} (h : Extends k fs v fs' w) :
    fieldsEnc j fs v = Derive.fieldsEnc j fs' w := by
  induction h with
  | nil => rfl
  | @keep f x fs v fs' w hf h ih => unfold Derive.fieldsEnc; rw [ih]
  | @new f fs v fs' w hf h ih =>
    rw [← ih]
    show (if f.from ≤ j then _ else _) = _
    rw [if_neg (by omega)]

theorem Extends.oldest {k : Nat} {fs fs' : List Field} {v : Vals fs} {w : Vals fs'} (h : Extends k fs v fs' w) :
    oldest fs v = Derive.oldest fs' w := by
  induction h with
  | nil => rfl
  | @keep f x fs v fs' w hf h ih => unfold Derive.oldest; rw [ih]
  | @new f fs v fs' w hf h ih =>
    rw [← ih]
    show (if f.dflt = f.dflt then _ else _) = _
    rw [if_pos rfl]

theorem Extends.fieldsOk {k j : Nat} (hj : j ≤ k) {fs fs' : List Field} {v : Vals fs} {w : Vals fs'} (h : Extends k fs v fs' w) :
    FieldsOk j fs' w → FieldsOk j fs v := by
  induction h with
  | nil => exact fun h => h
  | @keep f x fs v fs' w hf h ih => exact fun h => ⟨h.1, ih h.2⟩
  | @new f fs v fs' w hf h ih => exact fun h => ⟨fun h' => by omega, ih h⟩

theorem fieldsR_canonical {k : Nat} : ∀ {fs : List Field}, CanonicalFields fs → ∀ {v : Vals fs} {e : Enc Cell}, fieldsR k fs v e →
    e = fieldsEnc k fs v
  | [], _, _, _, h => h
  | f :: fs, hc, (v, vs), e, h => by
    have ih := fun e => fieldsR_canonical (k := k) (fun g hg => hc g (List.mem_cons_of_mem _ hg)) (v := vs) (e := e)
    show e = if f.from ≤ k then _ else _
    by_cases hk : f.from ≤ k
    · rw [fieldsR_in hk] at h
      obtain ⟨e1, e2, h1, h2, rfl⟩ := h
      rw [if_pos hk, hc f (List.mem_cons_self ..) v e1 h1, ih e2 h2]
    · rw [fieldsR_out hk] at h
      rw [if_neg hk]
      exact ih e h.2

theorem fieldsR_defaults {k : Nat} : ∀ {fs : List Field} {v : Vals fs} {e : Enc Cell}, fieldsR k fs v e → DefaultsAbove k fs v
  | [], _, _, _ => trivial
  | f :: fs, (v, vs), e, h => by
    by_cases hk : f.from ≤ k
    · rw [fieldsR_in hk] at h
      obtain ⟨e1, e2, h1, h2, rfl⟩ := h
      exact ⟨fun h => by omega, fieldsR_defaults h2⟩
    · rw [fieldsR_out hk] at h
      exact ⟨fun _ => h.1, fieldsR_defaults h.2⟩

theorem code_prefix {t u : TlbTag} (ht : t.Good) (hu : u.Good) (hb : t.bits = u.bits) {r r' : Enc Cell}
    (h : (Enc.bits t.code ++ r : Enc Cell) = Enc.bits u.code ++ r') : t.value = u.value := by
  have h1 : t.code ++ r.1 = u.code ++ r'.1 := congrArg Prod.fst h
  have hl : t.code.length = u.code.length := by unfold TlbTag.code; rw [natBits_length, natBits_length, hb]
  have := List.append_inj_left h1 hl
  unfold TlbTag.code at this
  have h3 := ht.2.2.1
  rw [hb] at this h3
  exact natBits_inj h3 hu.2.2.1 this

theorem width_eq {ts : List TlbTag} (hw : sameWidth ts = true) {t u : TlbTag} (ht : t ∈ ts) (hu : u ∈ ts) : t.bits = u.bits := by
  match ts, hw with
  | f :: rest, hw =>
    have : ∀ x ∈ f :: rest, x.bits = f.bits := by
      intro x hx
      rcases List.mem_cons.1 hx with rfl | hx
      · rfl
      · exact eq_of_beq (List.all_eq_true.1 hw x hx)
    rw [this t ht, this u hu]

theorem Struct.Good.width {S : Struct} (hg : S.Good) {ts : List TlbTag} (ht : S.tags = .multiple ts) : sameWidth ts = true := by
  have ha2 := hg.accepted
  unfold Struct.accepted at ha2
  rw [ht] at ha2
  simp only [Bool.and_eq_true] at ha2
  exact ha2.2.1.1

theorem get_value_inj {ts : List TlbTag} (hd : (ts.map TlbTag.value).Nodup) {i j : Nat} {t u : TlbTag} (hi : ts[i]? = some t)
    (hj : ts[j]? = some u) (h : t.value = u.value) : i = j :=
  nodup_get hd (u := u.value) (by rw [List.getElem?_map, hi, ← h]; rfl) (by rw [List.getElem?_map, hj]; rfl)

theorem mapM_length {α β : Type} (f : α → Option β) : ∀ {l : List α} {r : List β}, l.mapM f = some r → r.length = l.length
  | [], r, h => by
    rw [List.mapM_nil] at h
    cases h; rfl
  | a :: l, r, h => by
    rw [List.mapM_cons] at h
    cases ha : f a with
    | none => rw [ha] at h; cases h
    | some b =>
      rw [ha] at h
      cases hl : l.mapM f with
      | none => rw [hl] at h; cases h
      | some bs =>
        rw [hl] at h
        cases h
        rw [List.length_cons, List.length_cons, mapM_length f hl]

theorem mapM_mem {α β : Type} (f : α → Option β) : ∀ {l : List α} {r : List β}, l.mapM f = some r → ∀ b ∈ r, ∃ a, f a = some b
  | [], r, h, b, hb => by
    rw [List.mapM_nil] at h
    cases h; cases hb
  | a :: l, r, h, b, hb => by
    rw [List.mapM_cons] at h
    cases ha : f a with
    | none => rw [ha] at h; cases h
    | some x =>
      rw [ha] at h
      cases hl : l.mapM f with
      | none => rw [hl] at h; cases h
      | some bs =>
        rw [hl] at h
        cases h
        rcases List.mem_cons.1 hb with rfl | hb
        · exact ⟨a, ha⟩
        · exact mapM_mem f hl b hb

theorem foldl_lt {radix : Nat} (ds : List Nat) (h : ∀ d ∈ ds, d < radix) : ∀ (acc n : Nat), acc < radix ^ n →
    ds.foldl (fun acc d => acc * radix + d) acc < radix ^ (n + ds.length) := by
  induction ds with
  | nil => intro acc n ha; exact ha
  | cons d ds ih =>
    intro acc n ha
    rw [List.foldl_cons, List.length_cons, show n + (ds.length + 1) = (n + 1) + ds.length by omega]
    refine ih (fun x hx => h x (List.mem_cons_of_mem _ hx)) _ _ ?_
    have hd := h d (List.mem_cons_self ..)
    rw [Nat.pow_succ]
    calc acc * radix + d < acc * radix + radix := by omega
      _ = (acc + 1) * radix := by rw [Nat.add_mul, Nat.one_mul]
      _ ≤ radix ^ n * radix := Nat.mul_le_mul_right _ ha

theorem toDigit_lt {radix : Nat} {c : Char} {d : Nat} (h : V248.toDigit radix c = some d) : d < radix := by
  unfold V248.toDigit at h
  dsimp only at h
  split at h
  · split at h
    · injection h with h; omega
    · cases h
  · cases h

theorem parse_lt {radix max : Nat} {t : List Char} {v : Nat} (h : Text.parseUint radix max t = some v) :
    v ≤ max ∧ t ≠ [] ∧ v < radix ^ t.length ∧ 0 < radix := by
  unfold Text.parseUint at h
  cases hp : Text.parseDigits radix (Text.stripPlus t) with
  | none => rw [hp] at h; cases h
  | some n =>
    rw [hp] at h
    dsimp only at h
    split at h
    · rename_i hm
      injection h with h
      subst h
      unfold Text.parseDigits at hp
      split at hp
      · cases hp
      · rename_i hne
        cases hd : V248.digitsOf radix (Text.stripPlus t) with
        | none => rw [hd] at hp; cases hp
        | some ds =>
          rw [hd] at hp
          injection hp with hp
          have hl := mapM_length _ hd
          have hlt : ∀ d ∈ ds, d < radix := fun d h => by
            obtain ⟨c, hc⟩ := mapM_mem _ hd d h
            exact toDigit_lt hc
          have hle : (Text.stripPlus t).length ≤ t.length := by
            unfold Text.stripPlus
            split
            · exact Nat.le_succ _
            · exact Nat.le_refl _
          have h0 : 0 < radix := by
            cases ds with
            | nil => exact absurd (List.length_eq_zero_iff.1 hl.symm) hne
            | cons d _ => exact Nat.lt_of_le_of_lt (Nat.zero_le _) (hlt d (List.mem_cons_self ..))
          have := foldl_lt ds hlt 0 0 (by rw [Nat.pow_zero]; decide)
          rw [Nat.zero_add, hl] at this
          refine ⟨hm, ?_, ?_, h0⟩
          · rintro rfl; exact hne rfl
          · rw [← hp]
            exact Nat.lt_of_lt_of_le this (Nat.pow_le_pow_right h0 hle)
    · cases h

end Verif.Derive
