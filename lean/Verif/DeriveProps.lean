import Verif.DeriveLemmas
/-
C86: what `#[derive(Store, Load)]` promises for every struct description.
-/
set_option linter.unusedVariables false
set_option linter.unusedSimpArgs false
namespace Verif.Derive

/-! ## Properties -/

/-- For every struct that the macros accept, with sound codecs for its fields and tags that fit and differ: `store_into` writes the
tag of the oldest version that can hold the value and the fields of that version, and fails with `CellOverflow` exactly if there is
no room; `load_from` reads every version of the scheme, whatever follows, gives the fields that the version does not have their
defaults, accepts nothing else and never panics.

Partial: the macros do not check that the tags differ; see `C86_equal_tags`. -/
theorem C86_sound_partial {S : Struct} (h : S.Good) : S.codec.Sound :=
  ⟨⟨fun v hv => store_writes h v hv, fun v hv => store_canon h v hv⟩, load_loads h⟩

/-- What was stored is loaded back, and nothing is left. -/
theorem C86_round_partial {S : Struct} (h : S.Good) {v : Vals S.fields} (hv : S.codec.ok v) {b : CellB Cell}
    (hb : S.store v .new = (.ok (), b)) : ∃ s, S.load b.asSlice = (.ok v, s) ∧ s.contents = Enc.nil :=
  (C86_sound_partial h).round hv hb

/-- The version that is written can hold the value, and no older version can. -/
theorem C86_version (fs : List Field) (v : Vals fs) (k : Nat) : tagVersion fs v ≤ k ↔ DefaultsAbove k fs v := by
  rw [tagVersion_eq, defaultsAbove_iff]

/-- Data of an older form of the struct: with version `k` as its last. Whatever the old form accepts, the new one reads as the same
values with defaults for the new fields; and as long as the new fields have their defaults it writes the very same data. -/
theorem C86_old_data {S S' : Struct} (h : S.Good) (h' : S'.Good) {ts : List TlbTag} {k : Nat} (ht : S.tags = .multiple ts)
    (ht' : S'.tags = .multiple (ts.take (k + 1))) {v : Vals S.fields} {w : Vals S'.fields} (hx : Extends k S.fields v S'.fields w)
    (hv : S.Valid v) :
    (∀ e, S'.R w e → Reads S.load e v) ∧ (S'.codec.ok w → Writes (S.store v) (S'.codec.enc w)) := by
  have hk : ∀ {j : Nat} {t : TlbTag}, (ts.take (k + 1))[j]? = some t → j ≤ k ∧ ts[j]? = some t := by
    intro j t hj
    rw [List.getElem?_take] at hj
    split at hj
    · exact ⟨by omega, hj⟩
    · cases hj
  refine ⟨fun e he => (load_loads h).reads v e ⟨hv, ?_⟩, fun hw => ?_⟩
  · have := he.2
    rw [ht'] at this
    rw [ht]
    obtain ⟨j, t, h1, e1, e2, h2, h3, rfl⟩ := this
    obtain ⟨h4, h5⟩ := hk h1
    exact ⟨j, t, h5, e1, e2, h2, hx.fieldsR h4 _ h3, rfl⟩
  · have hl := oldest_lt h'.accepted ht' w
    have hg : (ts.take (k + 1))[oldest S'.fields w]? = some (ts.take (k + 1))[oldest S'.fields w] := List.getElem?_eq_getElem hl
    obtain ⟨h4, h5⟩ := hk hg
    have hok : S.codec.ok v := by
      refine ⟨hv, ?_⟩
      have := hw.2
      rw [ht'] at this
      rw [ht]
      dsimp only at this ⊢
      rw [hx.oldest]
      exact hx.fieldsOk h4 this
    have he : S.codec.enc v = S'.codec.enc w := by
      show S.encAt _ v = S'.encAt _ w
      unfold Struct.encAt
      rw [ht, ht']
      dsimp only
      rw [hx.oldest, h5, hg, hx.fieldsEnc h4]
    rw [← he]
    exact store_writes h v hok

/-- Old code and new data: an older form of the struct refuses data whose version it does not know. -/
theorem C86_new_data {S' : Struct} (h' : S'.Good) {ts : List TlbTag} {k : Nat} (ht' : S'.tags = .multiple (ts.take (k + 1)))
    (hg : ∀ t ∈ ts, t.Good) (hw : sameWidth ts = true) (hd : (ts.map TlbTag.value).Nodup) {j : Nat} {t : TlbTag} (hj : ts[j]? = some t)
    (hk : k < j) (s : CSlice Cell) (hs : s.WF) (rest : Enc Cell) (hc : s.contents = Enc.bits t.code ++ rest) (w : Vals S'.fields)
    (s' : CSlice Cell) : S'.load s ≠ (.ok w, s') := by
  intro hl
  obtain ⟨e, hR, he, _⟩ := (load_loads h').exact s s' w hs hl
  have := hR.2
  rw [ht'] at this
  obtain ⟨i, u, hi, e1, e2, h1, h2, rfl⟩ := this
  rw [List.getElem?_take] at hi
  split at hi
  · rename_i hik
    have hm := List.mem_of_getElem? hj
    have hmu := List.mem_of_getElem? hi
    unfold Enc.Lit at h1
    subst h1
    rw [hc, Enc.append_assoc] at he
    have := get_value_inj hd hj hi (code_prefix (hg t hm) (hg u hmu) (width_eq hw hm hmu) he)
    omega
  · cases hi

/-- A value that was loaded in version `k` is stored as the same data exactly if `k` is the oldest version that can hold it
(for fields with one encoding for each value). -/
theorem C86_restored {S : Struct} (h : S.Good) (hc : CanonicalFields S.fields) {ts : List TlbTag} (ht : S.tags = .multiple ts) {k : Nat}
    {t : TlbTag} (hk : ts[k]? = some t) {v : Vals S.fields} {e : Enc Cell} (he : (Enc.Lit t.code ⬝ fieldsR k S.fields v) e) :
    DefaultsAbove k S.fields v ∧ (S.codec.enc v = e ↔ oldest S.fields v = k) := by
  obtain ⟨e1, e2, h1, h2, rfl⟩ := he
  have hda := fieldsR_defaults h2
  refine ⟨hda, ?_⟩
  have hl := oldest_lt h.accepted ht v
  have hg : ts[oldest S.fields v]? = some ts[oldest S.fields v] := List.getElem?_eq_getElem hl
  have henc : S.codec.enc v = Enc.bits (ts[oldest S.fields v]).code ++ fieldsEnc (oldest S.fields v) S.fields v := by
    show S.encAt _ v = _
    unfold Struct.encAt
    rw [ht]
    dsimp only
    rw [hg]
  have htags := h.tags
  have hd := h.distinct
  rw [ht] at htags hd
  unfold Enc.Lit at h1
  subst h1
  rw [henc, fieldsR_canonical hc h2]
  constructor
  · intro heq
    exact get_value_inj hd hg hk (code_prefix (htags _ (List.mem_of_getElem? hg)) (htags _ (List.mem_of_getElem? hk))
      (width_eq (h.width ht) (List.mem_of_getElem? hg) (List.mem_of_getElem? hk)) heq)
  · intro heq
    have : ts[oldest S.fields v] = t := by
      have hk' := hk
      rw [← heq, hg] at hk'
      injection hk'
    rw [this, heq]

/-- A value that the validation refuses is not stored, and nothing is written; it is not loaded either. -/
theorem C86_validated {S : Struct} {c : Vals S.fields → Bool} (hc : S.valid = some c) :
    (S.unit = false → ∀ v b, c v = false → S.store v b = (.error .invalidData, b)) ∧
    (∀ v s s', S.load s = (.ok v, s') → c v = true) := by
  refine ⟨fun hu v b hv => ?_, fun v s s' hl => ?_⟩
  · unfold Struct.store
    rcases hh : storeHead S v with ⟨ver, tag⟩
    dsimp only
    rw [if_neg (by rw [hu]; decide)]
    unfold storeCheck
    rw [hc]
    dsimp only
    rw [hv]
    rfl
  · unfold Struct.load at hl
    obtain ⟨ver, s1, _, hl⟩ := Prog.bind_inv hl
    obtain ⟨x, s2, _, hl⟩ := Prog.bind_inv hl
    rw [hc] at hl
    dsimp only at hl
    obtain ⟨u, s3, h1, hl⟩ := Prog.bind_inv hl
    obtain ⟨h2, _⟩ := Prog.check_inv h1
    cases hl
    exact h2

/-- Every tag text of up to 16 hexadecimal or 64 binary digits that the macros accept gives a tag that fits its width. -/
theorem C86_tag_text {text : List Char} {t : TlbTag} (h : parseTag text = some t) (hl : text.length ≤ if text.head? = some '#' then 17 else 65) :
    t.Good := by
  unfold parseTag at h
  split at h
  · rename_i r
    cases hp : Text.parseUint 16 (2 ^ 32 - 1) r with
    | none => rw [hp] at h; cases h
    | some v =>
      rw [hp] at h
      injection h with h
      obtain ⟨h1, h2, h3, _⟩ := parse_lt hp
      have hl : r.length + 1 ≤ 17 := hl
      have hr : 1 ≤ r.length := by cases r with | nil => exact absurd rfl h2 | cons _ _ => exact Nat.succ_pos _
      have hm : r.length * 4 % 256 = r.length * 4 := Nat.mod_eq_of_lt (by omega)
      rw [hm] at h
      subst h
      refine ⟨by show 1 ≤ r.length * 4; omega, by show r.length * 4 ≤ 64; omega, ?_, by show v < 2 ^ 32; omega⟩
      show v < 2 ^ (r.length * 4)
      rw [Nat.mul_comm, Nat.pow_mul]
      exact h3
  · rename_i r
    cases hp : Text.parseUint 2 (2 ^ 32 - 1) r with
    | none => rw [hp] at h; cases h
    | some v =>
      rw [hp] at h
      injection h with h
      obtain ⟨h1, h2, h3, _⟩ := parse_lt hp
      have hl : r.length + 1 ≤ 65 := hl
      have hr : 1 ≤ r.length := by cases r with | nil => exact absurd rfl h2 | cons _ _ => exact Nat.succ_pos _
      have hm : r.length % 256 = r.length := Nat.mod_eq_of_lt (by omega)
      rw [hm] at h
      subst h
      exact ⟨hr, by show r.length ≤ 64; omega, h3, by show v < 2 ^ 32; omega⟩
  · cases h

/-! ## Examples and findings -/

instance (t : TlbTag) : Decidable t.Good := by unfold TlbTag.Good; infer_instance

/-- A field of the type `u32`, `bool`. -/
def u32Field (since : Option Nat) : Field := ⟨Nat, inferInstance, Tlb.u32, since, 0⟩
def boolField (since : Option Nat) : Field := ⟨Bool, inferInstance, Tlb.bool, since, false⟩

/-- The struct of the test `cell/mod.rs:1895-1905`. -/
def versioned : Struct where
  fields := [u32Field none, u32Field (some 1), boolField none, boolField (some 2)]
  unit := false
  tags := .multiple [⟨0x12, 8⟩, ⟨0x34, 8⟩, ⟨0x56, 8⟩]
  valid := none

/-- The form of the struct before its last version. -/
def versioned1 : Struct where
  fields := [u32Field none, u32Field (some 1), boolField none]
  unit := false
  tags := .multiple [⟨0x12, 8⟩, ⟨0x34, 8⟩]
  valid := none

example : ["#12", "#34", "#56"].map (fun s => parseTag s.toList) = [some ⟨0x12, 8⟩, some ⟨0x34, 8⟩, some ⟨0x56, 8⟩] := by decide +kernel
example : [parseTag "$101".toList, parseTag "#+f".toList, parseTag "#".toList, parseTag "12".toList] = [some ⟨5, 3⟩, some ⟨15, 8⟩, none, none] := by
  decide +kernel

theorem versioned_good : versioned.Good where
  accepted := by decide +kernel
  tags := by intro t ht; simp only [versioned, Tags.list, List.mem_cons, List.not_mem_nil, or_false] at ht; rcases ht with rfl | rfl | rfl <;> decide +kernel
  distinct := by decide +kernel
  fields := by
    intro f hf
    simp only [versioned, List.mem_cons, List.not_mem_nil, or_false] at hf
    rcases hf with rfl | rfl | rfl | rfl
    · exact Tlb.u32_sound
    · exact Tlb.u32_sound
    · exact Tlb.bool_sound
    · exact Tlb.bool_sound
  unit := by intro h; cases h

theorem versioned1_good : versioned1.Good where
  accepted := by decide +kernel
  tags := by intro t ht; simp only [versioned1, Tags.list, List.mem_cons, List.not_mem_nil, or_false] at ht; rcases ht with rfl | rfl <;> decide +kernel
  distinct := by decide +kernel
  fields := by
    intro f hf
    simp only [versioned1, List.mem_cons, List.not_mem_nil, or_false] at hf
    rcases hf with rfl | rfl | rfl
    · exact Tlb.u32_sound
    · exact Tlb.u32_sound
    · exact Tlb.bool_sound
  unit := by intro h; cases h

/-- What `store_into` writes into a new builder. -/
def Struct.bits (S : Struct) (v : Vals S.fields) : Option Bits := (S.store v).toSl.toOption.map Sl.bits

/-- The loader on a cell with these bits. -/
def Struct.parse (S : Struct) (l : Bits) : Except Err (Vals S.fields) := (S.load (Sl.reader ⟨l, []⟩)).1

/-- The values of the fields of `Versioned`. -/
abbrev Versioned := Nat × Nat × Bool × Bool × Unit

/-- What the loader of `versioned` makes of a cell with these bits. -/
def versionedLoad (l : Bits) : Option Versioned := (versioned.parse l).toOption

/-- The three values of the test and what is written for them. -/
example : versioned.bits ((123, 0, true, false, ()) : Versioned) = some (natBits 8 0x12 ++ natBits 32 123 ++ [true]) := by decide +kernel
example : versioned.bits ((123, 456, true, false, ()) : Versioned) = some (natBits 8 0x34 ++ natBits 32 123 ++ natBits 32 456 ++ [true]) := by
  decide +kernel
example : versioned.bits ((123, 0, true, true, ()) : Versioned) =
    some (natBits 8 0x56 ++ natBits 32 123 ++ natBits 32 0 ++ [true] ++ [true]) := by decide +kernel

/-- The hypotheses of `C86_old_data` hold for the two forms. -/
example : Extends 1 versioned.fields ((123, 456, true, false, ()) : Versioned) versioned1.fields ((123, 456, true, ()) : Nat × Nat × Bool × Unit) :=
  .keep (u32Field none) (123 : Nat) (by decide) (.keep (u32Field (some 1)) (456 : Nat) (by decide) (.keep (boolField none) true (by decide)
    (.new (boolField (some 2)) (by decide) .nil)))

/-- Data of an old version is accepted by the new form; data of a new version is refused by the old form. -/
example : versionedLoad (natBits 8 0x34 ++ natBits 32 123 ++ natBits 32 456 ++ [true]) =
    some (123, 456, true, false, ()) := by decide +kernel
example : (match versioned1.parse (natBits 8 0x56 ++ natBits 32 123 ++ natBits 32 0 ++ [true] ++ [true]) with
    | .error e => some e
    | .ok _ => none) = some .invalidTag := by decide +kernel

/-- Not every accepted cell is stored again as it was: data of version 1 whose new field has its default is stored as version 0. -/
theorem C86_not_restored :
    versionedLoad (natBits 8 0x34 ++ natBits 32 123 ++ natBits 32 0 ++ [true]) = some (123, 0, true, false, ()) ∧
    versioned.bits ((123, 0, true, false, ()) : Versioned) = some (natBits 8 0x12 ++ natBits 32 123 ++ [true]) := by decide +kernel

/-- A struct with two equal tags: the second version cannot be told from the first. -/
def equalTags : Struct where
  fields := [u32Field none, u32Field (some 1)]
  unit := false
  tags := .multiple [⟨0x12, 8⟩, ⟨0x12, 8⟩]
  valid := none

/-- What the loader of `equalTags` makes of a cell with these bits. -/
def equalTagsLoad (l : Bits) : Option (Nat × Nat × Unit) := (equalTags.parse l).toOption

/-- Finding: the macros accept equal tags. A value of the second version is stored, and loaded as another value. -/
theorem C86_equal_tags : equalTags.accepted = true ∧ (∀ f ∈ equalTags.fields, f.codec.Sound) ∧
    equalTags.bits ((123, 456, ()) : Nat × Nat × Unit) = some (natBits 8 0x12 ++ natBits 32 123 ++ natBits 32 456) ∧
    equalTagsLoad (natBits 8 0x12 ++ natBits 32 123 ++ natBits 32 456) = some (123, 0, ()) := by
  refine ⟨by decide +kernel, ?_, by decide +kernel, by decide +kernel⟩
  intro f hf
  simp only [equalTags, List.mem_cons, List.not_mem_nil, or_false] at hf
  rcases hf with rfl | rfl
  · exact Tlb.u32_sound
  · exact Tlb.u32_sound

/-- Finding: the width of a tag is a `u8`. A tag text of 64 digits is accepted as a tag of no bits, and no tag is stored or loaded. -/
theorem C86_wide_tag : parseTag ('#' :: List.replicate 64 '0') = some ⟨0, 0⟩ ∧ (storeTag ⟨0, 0⟩).isNone = true ∧ (loadTag ⟨0, 0⟩).isNone = true := by
  refine ⟨by decide +kernel, rfl, rfl⟩

end Verif.Derive
