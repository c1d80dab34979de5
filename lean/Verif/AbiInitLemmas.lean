import Verif.AbiInit
import Verif.CurrencyProps
/-!
# Initial data: helper lemmas
-/
set_option linter.unusedVariables false
set_option linter.unusedSimpArgs false
namespace Verif
namespace Abi

/-- What a relation between dictionaries and maps must satisfy: writing a leaf writes it in the map. -/
def Follows (acc : Cell → Bool) (R : Option Cell → DMap → Prop) : Prop :=
  ∀ d m k v d', R d m → k.length = 64 → setLeaf acc d k 64 v = .ok d' → R d' (m.put k (some v))

theorem follows_canonical (acc : Cell → Bool) : Follows acc (RepresentsC acc 64) := fun _ _ _ _ _ hd _ h => (setLeaf_spec (by decide) hd h).2

theorem follows_any (acc : Cell → Bool) : Follows acc (Represents acc 64) := by
  intro d m k v d' hd hk h
  have hs := C22_any_encoding acc (by decide) hd (.insert .set k v) hk
  have hr : (DOp.insert .set k v).run acc 64 d = ((dictInsert acc d k 64 v .set).1.map .flag, (dictInsert acc d k 64 v .set).2) := rfl
  rw [hr] at hs
  unfold setLeaf at h
  generalize dictInsert acc d k 64 v .set = out at h hs
  obtain ⟨r, d2⟩ := out
  cases r with
  | error x => cases h
  | ok f =>
    injection h with h
    subst h
    rcases hs with ⟨_, h2⟩ | ⟨⟨e, h1⟩, _⟩
    · exact h2
    · cases h1

theorem get_any {acc : Cell → Bool} {d : Option Cell} {m : DMap} (hd : Represents acc 64 d m) {k : Bits} (hk : k.length = 64) : dictGet d 64 k = .ok (m k) := by
  have hs := C22_any_encoding acc (by decide) hd (.get k) hk
  have hr : (DOp.get k).run acc 64 d = ((dictGet d 64 k).map .value, d) := rfl
  rw [hr] at hs
  rcases hs with ⟨h1, _⟩ | ⟨_, _, h3⟩
  · cases hg : dictGet d 64 k with
    | error e => rw [hg] at h1; cases h1
    | ok r =>
      rw [hg] at h1
      injection h1 with h1
      injection h1 with h1
      rw [h1]
  · exact absurd rfl (h3 k)

theorem ok_bind {α β : Type} {x : Except Err α} {f : α → Except Err β} {b : β} (h : (x >>= f) = .ok b) : ∃ a, x = .ok a ∧ f a = .ok b := by
  cases x with
  | error e => cases h
  | ok a => exact ⟨a, rfl, h⟩

theorem itemFor_inv {l : List InitItem} {tok : String × Val} {i : InitItem} (h : itemFor l tok = .ok i) : i ∈ l ∧ i.name = tok.1 ∧ hasType tok.2 i.ty = true := by
  unfold itemFor at h
  cases hf : l.find? (fun i => i.name == tok.1) with
  | none => rw [hf] at h; cases h
  | some j =>
    rw [hf] at h
    dsimp only at h
    by_cases ht : hasType tok.2 j.ty = true
    · rw [if_pos ht] at h
      injection h with h
      subst h
      exact ⟨List.mem_of_find?_eq_some hf, by simpa using List.find?_some hf, ht⟩
    · rw [if_neg ht] at h; cases h

/-- A value that was written: the item, the value, its leaf. -/
abbrev Put := InitItem × Val × Sl

def Put.entry (x : Put) : Bits × Sl := (natBits 64 x.1.key, x.2.2)

/-- The values of the puts are leaves of the items. -/
def PutOk (acc : Cell → Bool) (ver : Ver) (x : Put) : Prop := leafOf acc ver x.2.1 = .ok x.2.2

theorem setItem_inv {acc : Cell → Bool} {ver : Ver} {R : Option Cell → DMap → Prop} (hR : Follows acc R) {i : InitItem} {v : Val} {d d' : Option Cell} {m : DMap} (hd : R d m)
    (h : setItem acc ver i v d = .ok d') : ∃ sl, leafOf acc ver v = .ok sl ∧ R d' (m.put (natBits 64 i.key) (some sl)) := by
  obtain ⟨sl, h1, h2⟩ := ok_bind h
  exact ⟨sl, h1, hR _ _ _ _ _ hd (natBits_length _ _) h2⟩

theorem tokens_spec {acc : Cell → Bool} {ver : Ver} {R : Option Cell → DMap → Prop} (hR : Follows acc R) : ∀ {tokens : List (String × Val)} {l l' : List InitItem}
    {d d' : Option Cell} {m : DMap}, R d m → encodeTokens acc ver tokens l d = .ok (l', d') →
    ∃ S : List Put, tokens = S.map (fun x => (x.1.name, x.2.1)) ∧ (∀ x ∈ S, x.1 ∈ l ∧ hasType x.2.1 x.1.ty = true ∧ PutOk acc ver x) ∧ (tokens.map (·.1)).Nodup ∧
      l' = l.filter (fun i => !(tokens.map (·.1)).contains i.name) ∧ R d' (m.over (S.map Put.entry))
  | [], l, l', d, d', m, hd, h => by
    injection h with h
    injection h with h1 h2
    subst h1 h2
    refine ⟨[], rfl, (fun x hx => by cases hx), List.nodup_nil, ?_, hd⟩
    exact (List.filter_eq_self.mpr fun _ _ => rfl).symm
  | tok :: r, l, l', d, d', m, hd, h => by
    rw [encodeTokens] at h
    obtain ⟨i, h1, h⟩ := ok_bind h
    obtain ⟨d1, h2, h3⟩ := ok_bind h
    obtain ⟨hm, hn, ht⟩ := itemFor_inv h1
    obtain ⟨sl, h4, h5⟩ := setItem_inv hR hd h2
    obtain ⟨S, e1, e2, e3, e4, e5⟩ := tokens_spec hR h5 h3
    have hmem : ∀ x ∈ S, x.1 ∈ l ∧ x.1.name ≠ tok.1 := fun x hx => by
      have := List.mem_filter.mp (e2 x hx).1
      exact ⟨this.1, by simpa using this.2⟩
    refine ⟨(i, tok.2, sl) :: S, ?_, ?_, ?_, ?_, e5⟩
    · rw [List.map_cons, ← e1]
      show tok :: r = (i.name, tok.2) :: r
      rw [hn]
    · intro x hx
      rcases List.mem_cons.mp hx with rfl | hx
      · exact ⟨hm, ht, h4⟩
      · exact ⟨(hmem x hx).1, (e2 x hx).2⟩
    · rw [List.map_cons, List.nodup_cons]
      refine ⟨fun hc => ?_, e3⟩
      rw [e1, List.map_map] at hc
      obtain ⟨x, hx, e⟩ := List.mem_map.mp hc
      exact (hmem x hx).2 e
    · rw [e4, List.filter_filter]
      refine List.filter_congr fun j _ => ?_
      rw [List.map_cons, List.contains_cons]
      cases (r.map (·.1)).contains j.name <;> simp [bne]

theorem defaults_spec {acc : Cell → Bool} {ver : Ver} {R : Option Cell → DMap → Prop} (hR : Follows acc R) : ∀ {l : List InitItem}
    {d d' : Option Cell} {m : DMap}, R d m → encodeDefaults acc ver l d = .ok d' →
    ∃ S : List Put, l = S.map (·.1) ∧ (∀ x ∈ S, x.2.1 = x.1.ty.default ∧ PutOk acc ver x) ∧ R d' (m.over (S.map Put.entry))
  | [], d, d', m, hd, h => by
    injection h with h
    subst h
    exact ⟨[], rfl, (fun x hx => by cases hx), hd⟩
  | i :: l, d, d', m, hd, h => by
    rw [encodeDefaults] at h
    obtain ⟨d1, h2, h3⟩ := ok_bind h
    obtain ⟨sl, h4, h5⟩ := setItem_inv hR hd h2
    obtain ⟨S, e1, e2, e3⟩ := defaults_spec hR h5 h3
    refine ⟨(i, i.ty.default, sl) :: S, by rw [List.map_cons, ← e1], ?_, e3⟩
    intro x hx
    rcases List.mem_cons.mp hx with rfl | hx
    · exact ⟨rfl, h4⟩
    · exact e2 x hx

theorem update_spec {acc : Cell → Bool} {ver : Ver} {R : Option Cell → DMap → Prop} (hR : Follows acc R) {l : List InitItem} : ∀ {tokens : List (String × Val)}
    {d d' : Option Cell} {m : DMap}, R d m → updateTokens acc ver l tokens d = .ok d' →
    ∃ S : List Put, tokens = S.map (fun x => (x.1.name, x.2.1)) ∧ (∀ x ∈ S, x.1 ∈ l ∧ hasType x.2.1 x.1.ty = true ∧ PutOk acc ver x) ∧ R d' (m.over (S.map Put.entry))
  | [], d, d', m, hd, h => by
    injection h with h
    subst h
    exact ⟨[], rfl, (fun x hx => by cases hx), hd⟩
  | tok :: r, d, d', m, hd, h => by
    rw [updateTokens] at h
    obtain ⟨i, h1, h⟩ := ok_bind h
    obtain ⟨d1, h2, h3⟩ := ok_bind h
    obtain ⟨hm, hn, ht⟩ := itemFor_inv h1
    obtain ⟨sl, h4, h5⟩ := setItem_inv hR hd h2
    obtain ⟨S, e1, e2, e3⟩ := update_spec hR h5 h3
    refine ⟨(i, tok.2, sl) :: S, ?_, ?_, e3⟩
    · rw [List.map_cons, ← e1]
      show tok :: r = (i.name, tok.2) :: r
      rw [hn]
    · intro x hx
      rcases List.mem_cons.mp hx with rfl | hx
      · exact ⟨hm, ht, h4⟩
      · exact e2 x hx

/-! ### Maps -/

theorem over_append {m : DMap} : ∀ {a b : List (Bits × Sl)}, m.over (a ++ b) = (m.over a).over b := by
  intro a
  induction a generalizing m with
  | nil => intro b; rfl
  | cons p a ih => intro b; obtain ⟨k, v⟩ := p; exact ih

/-- The last entry of a key decides. -/
theorem over_last {a b : List (Bits × Sl)} {m : DMap} {k : Bits} {v : Sl} (hb : ∀ p ∈ b, p.1 ≠ k) : m.over (a ++ (k, v) :: b) k = some v := by
  rw [over_append]
  show ((m.over a).put k (some v)).over b k = _
  rw [over_absent hb]
  exact if_pos rfl

theorem over_nodup {l : List (Bits × Sl)} {m : DMap} {k : Bits} {v : Sl} (hn : (l.map (·.1)).Nodup) (h : (k, v) ∈ l) : m.over l k = some v := by
  obtain ⟨a, b, rfl⟩ := List.append_of_mem h
  refine over_last fun p hp e => ?_
  rw [List.map_append, List.map_cons, List.nodup_append] at hn
  have := (List.nodup_cons.mp hn.2.1).1
  exact this (e ▸ List.mem_map.mpr ⟨p, hp, rfl⟩)

theorem key_inj {a b : Nat} (ha : a < 2 ^ 64) (hb : b < 2 ^ 64) (h : natBits 64 a = natBits 64 b) : a = b := by
  have := congrArg natOfBits h
  rw [natOfBits_natBits, natOfBits_natBits, Nat.mod_eq_of_lt ha, Nat.mod_eq_of_lt hb] at this
  exact this

theorem find_mem {α : Type} [DecidableEq β] {f : α → β} : ∀ {l : List α}, (l.map f).Nodup → ∀ {x : α}, x ∈ l → l.find? (fun y => f y == f x) = some x
  | [], _, x, h => by cases h
  | y :: l, hn, x, h => by
    rw [List.map_cons, List.nodup_cons] at hn
    rcases List.mem_cons.mp h with rfl | h
    · rw [List.find?_cons_of_pos (by simp)]
    · have : f y ≠ f x := fun e => hn.1 (e ▸ List.mem_map.mpr ⟨x, h, rfl⟩)
      rw [List.find?_cons_of_neg (by simpa using this)]
      exact find_mem hn.2 h

/-! ### The cell -/

theorem parse_stored {α : Type} {T : Tlb α} (hT : T.Sound) {v : α} (hv : T.ok v) (hf : (T.enc v).Fits) : Tlb.parseAs T.load (Tlb.cellOf (T.enc v)) = .ok v := by
  have e0 : Tlb.parseAs T.load (Tlb.cellOf (T.enc v)) = (T.load (Sl.reader ⟨(T.enc v).1, (T.enc v).2⟩)).1 :=
    (if_neg (by show ¬ (false = true); decide)).trans (if_pos hf)
  refine e0.trans ?_
  obtain ⟨w, ct⟩ := Tlb.reader_contents (b := (T.enc v).1) (r := (T.enc v).2) hf
  obtain ⟨s', hl, _⟩ := hT.ld.reads v _ (hT.st.canon v hv) _ Enc.nil w (ct.trans (Enc.append_nil _).symm)
  rw [hl]

theorem dictCell_inv {acc : Cell → Bool} {d : Option Cell} {c : Cell} (h : dictCell acc d = .ok c) : Tlb.parseAs Tlb.dict.load c = .ok d ∧ c = Tlb.cellOf (Tlb.dict.enc d) := by
  have hok : Tlb.dict.ok d := by cases d <;> exact trivial
  obtain ⟨hf, rfl⟩ := stored_inv (Tlb.dict_sound.st.writes d hok) h
  exact ⟨parse_stored Tlb.dict_sound hok hf, rfl⟩

/-! ### Values -/

theorem leafOf_read {acc : Cell → Bool} {ver : Ver} (hv : 1 ≤ ver.major) {v : Val} {t : Ty} (ht : hasType v t = true) (hg : Good ver (v.named t)) (hr : Regular ver (v.named t)) {sl : Sl}
    (h : leafOf acc ver v = .ok sl) (part : Bool) : whole part (load ver part t true) sl.reader = .ok (v.named t) := by
  obtain ⟨b, h1, h2⟩ := ok_bind h
  injection h2 with h2
  subst h2
  rw [← named_write acc ver v t, ← named_size ver v t] at h1
  obtain ⟨T, g, G, hf, hp, he, _⟩ := child_spec hv (written hv _ hg) hr h1
  have := read_own hf hp he part
  rw [named_type v t ht] at this
  exact this

theorem same_length (v : Val) : ∀ n, (Elems.same v n).length = n
  | 0 => by simp only [Elems.same, Elems.length]
  | n + 1 => by simp only [Elems.same, Elems.length, same_length v n]

mutual
theorem default_has : ∀ t : Ty, hasType t.default t = true
  | .uint n => by simp only [Ty.default, hasType, beq_self_eq_true]
  | .int n => by simp only [Ty.default, hasType, beq_self_eq_true]
  | .varuint n => by simp only [Ty.default, hasType, beq_self_eq_true]
  | .varint n => by simp only [Ty.default, hasType, beq_self_eq_true]
  | .bool => rfl
  | .cell => rfl
  | .address => rfl
  | .bytes => rfl
  | .fixedBytes n => by simp only [Ty.default, hasType, List.length_replicate, beq_self_eq_true]
  | .string => rfl
  | .token => rfl
  | .tuple ts => by simp only [Ty.default, hasType]; exact defaults_have ts
  | .array t => by simp only [Ty.default, hasType, decide_true]
  | .fixedArray t n => by simp only [Ty.default, hasType, same_length, beq_self_eq_true, decide_true, Bool.and_self]
  | .map k t => by simp only [Ty.default, hasType, decide_true, Bool.and_self]
  | .optional t => by simp only [Ty.default, hasType, decide_true]
  | .ref t => by simp only [Ty.default, hasType]; exact default_has t
theorem defaults_have : ∀ ts : Tys, haveTypes ts.defaults ts = true
  | .nil => by simp only [Tys.defaults, haveTypes]
  | .cons n t r => by simp only [Tys.defaults, haveTypes, default_has t, defaults_have r, Bool.and_self]
end

mutual
/-- The default already has the names of the type. -/
theorem default_named : ∀ t : Ty, t.default.named t = t.default
  | .uint n => by simp only [Ty.default, Val.named]
  | .int n => by simp only [Ty.default, Val.named]
  | .varuint n => by simp only [Ty.default, Val.named]
  | .varint n => by simp only [Ty.default, Val.named]
  | .bool => by simp only [Ty.default, Val.named]
  | .cell => by simp only [Ty.default, Val.named]
  | .address => by simp only [Ty.default, Val.named]
  | .bytes => by simp only [Ty.default, Val.named]
  | .fixedBytes n => by simp only [Ty.default, Val.named]
  | .string => by simp only [Ty.default, Val.named]
  | .token => by simp only [Ty.default, Val.named]
  | .tuple ts => by simp only [Ty.default, Val.named, defaults_named ts]
  | .array t => by simp only [Ty.default, Val.named]
  | .fixedArray t n => by simp only [Ty.default, Val.named]
  | .map k t => by simp only [Ty.default, Val.named]
  | .optional t => by simp only [Ty.default, Val.named]
  | .ref t => by simp only [Ty.default, Val.named, default_named t]
theorem defaults_named : ∀ ts : Tys, ts.defaults.named ts = ts.defaults
  | .nil => by simp only [Tys.defaults, Items.named]
  | .cons n t r => by simp only [Tys.defaults, Items.named, default_named t, defaults_named r]
end

/-! ### The maps -/

theorem InitMap.unique {acc : Cell → Bool} {ver : Ver} {l l' : List InitItem} {key : List Byte} {tokens tokens' : List (String × Val)} {m m' : DMap}
    (h : InitMap acc ver l key tokens m) (h' : InitMap acc ver l' key tokens' m') (hl : ∀ i, i ∈ l ↔ i ∈ l')
    (ht : ∀ i ∈ l, initValue tokens i = initValue tokens' i) : ∀ k : Bits, k.length = 64 → m k = m' k := by
  intro k hk
  have hk' : k = natBits 64 (natOfBits k) := by rw [← hk, natBits_natOfBits]
  have hlt : natOfBits k < 2 ^ 64 := hk ▸ natOfBits_lt k
  rw [hk']
  generalize natOfBits k = n at hlt
  by_cases h0 : n = 0
  · rw [h0, h.pubkey, h'.pubkey]
  · by_cases hi : ∃ i ∈ l, i.key = n
    · obtain ⟨i, hi, rfl⟩ := hi
      obtain ⟨sl, e1, e2⟩ := h.items i hi
      obtain ⟨sl', e3, e4⟩ := h'.items i ((hl i).mp hi)
      rw [ht i hi, e3] at e1
      injection e1 with e1
      rw [e2, e4, e1]
    · rw [h.only n hlt h0 (fun i hm e => hi ⟨i, hm, e⟩), h'.only n hlt h0 (fun i hm e => hi ⟨i, (hl i).mpr hm, e⟩)]

/-- What encoding does, in terms of the map. -/
theorem encode_map {acc : Cell → Bool} {ver : Ver} {l : List InitItem} (hl : InitOk l) {key : List Byte} {tokens : List (String × Val)} {c : Cell}
    (h : encodeInit acc ver l key tokens = .ok c) :
    (tokens.map (·.1)).Nodup ∧ (∀ t ∈ tokens, ∃ i ∈ l, i.name = t.1 ∧ hasType t.2 i.ty = true) ∧
    ∃ d m, c = Tlb.cellOf (Tlb.dict.enc d) ∧ Tlb.parseAs Tlb.dict.load c = .ok d ∧ RepresentsC acc 64 d m ∧ InitMap acc ver l key tokens m := by
  obtain ⟨⟨l1, d1⟩, h1, h⟩ := ok_bind h
  obtain ⟨d2, h2, h⟩ := ok_bind h
  obtain ⟨d3, h3, h4⟩ := ok_bind h
  dsimp only at h2
  have hR := follows_canonical acc
  have h0 : RepresentsC acc 64 none (fun _ => none) := fun _ _ => rfl
  obtain ⟨S, a1, a2, a3, a4, a5⟩ := tokens_spec hR h0 h1
  obtain ⟨S', b1, b2, b3⟩ := defaults_spec hR a5 h2
  have h5 := hR _ _ _ _ _ b3 (natBits_length _ _) h3
  obtain ⟨c1, c2⟩ := dictCell_inv h4
  refine ⟨a3, ?_, d3, _, c2, c1, h5, ?_⟩
  · intro t ht
    rw [a1] at ht
    obtain ⟨x, hx, rfl⟩ := List.mem_map.mp ht
    exact ⟨x.1, (a2 x hx).1, rfl, (a2 x hx).2.1⟩
  rw [← over_append, ← List.map_append]
  -- all puts together
  have hitem : ∀ x ∈ S ++ S', x.1 ∈ l ∧ x.2.1 = initValue tokens x.1 ∧ PutOk acc ver x := by
    intro x hx
    rcases List.mem_append.mp hx with hx | hx
    · refine ⟨(a2 x hx).1, ?_, (a2 x hx).2.2⟩
      have hm : (x.1.name, x.2.1) ∈ tokens := a1 ▸ List.mem_map.mpr ⟨x, hx, rfl⟩
      have := find_mem (f := fun t : String × Val => t.1) a3 hm
      unfold initValue
      dsimp only at this
      rw [this]
    · have hm : x.1 ∈ l1 := b1 ▸ List.mem_map.mpr ⟨x, hx, rfl⟩
      rw [a4, List.mem_filter] at hm
      refine ⟨hm.1, ?_, (b2 x hx).2⟩
      have hn : tokens.find? (fun t => t.1 == x.1.name) = none := by
        rw [List.find?_eq_none]
        intro t ht e
        have h2 := hm.2
        rw [Bool.not_eq_true'] at h2
        have h3 : (tokens.map (·.1)).contains x.1.name = true := by
          rw [List.contains_iff_mem]
          exact List.mem_map.mpr ⟨t, ht, by simpa using e⟩
        rw [h3] at h2
        cases h2
      unfold initValue
      rw [hn]
      exact (b2 x hx).1
  have hall : ∀ i ∈ l, ∃ x ∈ S ++ S', x.1 = i := by
    intro i hi
    by_cases hc : (tokens.map (·.1)).contains i.name = true
    · rw [List.contains_iff_mem, a1, List.map_map] at hc
      obtain ⟨x, hx, e⟩ := List.mem_map.mp hc
      refine ⟨x, List.mem_append_left _ hx, ?_⟩
      have e1 := find_mem (f := InitItem.name) hl.names (a2 x hx).1
      have e2 := find_mem (f := InitItem.name) hl.names hi
      have e : x.1.name = i.name := e
      rw [e] at e1
      exact Option.some.inj (e1.symm.trans e2)
    · have : i ∈ l1 := by
        rw [a4, List.mem_filter]
        exact ⟨hi, by simpa using hc⟩
      rw [b1] at this
      obtain ⟨x, hx, e⟩ := List.mem_map.mp this
      exact ⟨x, List.mem_append_right _ hx, e⟩
  have hnames : ((S ++ S').map (fun x => x.1.name)).Nodup := by
    rw [List.map_append, List.nodup_append]
    have e1 : S.map (fun x => x.1.name) = tokens.map (·.1) := by rw [a1, List.map_map]; rfl
    have e2 : S'.map (fun x => x.1.name) = l1.map (·.name) := by rw [b1, List.map_map]; rfl
    rw [e1, e2]
    refine ⟨a3, ?_, ?_⟩
    · rw [a4]
      exact hl.names.sublist ((List.filter_sublist).map _)
    · intro a ha b hb e
      rw [a4] at hb
      obtain ⟨i, hi, rfl⟩ := List.mem_map.mp hb
      have h2 := (List.mem_filter.mp hi).2
      rw [Bool.not_eq_true'] at h2
      have h3 : (tokens.map (·.1)).contains i.name = true := by
        rw [List.contains_iff_mem, ← e]
        exact ha
      rw [h3] at h2
      cases h2
  have hentry : ∀ x ∈ S ++ S', ∀ y ∈ S ++ S', x.entry.1 = y.entry.1 → x.1 = y.1 := by
    intro x hx y hy e
    have ex := hl.range _ (hitem x hx).1
    have ey := hl.range _ (hitem y hy).1
    have ek : x.1.key = y.1.key := key_inj ex.2 ey.2 e
    have e1 := find_mem (f := InitItem.key) hl.keys (hitem x hx).1
    have e2 := find_mem (f := InitItem.key) hl.keys (hitem y hy).1
    rw [ek] at e1
    exact Option.some.inj (e1.symm.trans e2)
  have hkeys : (((S ++ S').map Put.entry).map (·.1)).Nodup := by
    rw [List.map_map]
    unfold List.Nodup at hnames ⊢
    rw [List.pairwise_map] at hnames ⊢
    refine hnames.imp_of_mem fun {x y} hx hy hne e => ?_
    exact hne (congrArg InitItem.name (hentry x hx y hy e))
  have hzero : ∀ k, k < 2 ^ 64 → k ≠ 0 → natBits 64 k ≠ natBits 64 0 := fun k hk h0 e => h0 (key_inj hk (by decide) e)
  refine ⟨if_pos rfl, ?_, ?_⟩
  · intro i hi
    obtain ⟨x, hx, rfl⟩ := hall i hi
    obtain ⟨_, e2, e3⟩ := hitem x hx
    refine ⟨x.2.2, e2 ▸ e3, ?_⟩
    have hr := hl.range _ hi
    refine (if_neg (hzero _ hr.2 (by omega))).trans ?_
    exact over_nodup hkeys (List.mem_map.mpr ⟨x, hx, rfl⟩)
  · intro k hk h0 hn
    refine (if_neg (hzero _ hk h0)).trans ?_
    rw [over_absent]
    intro p hp e
    obtain ⟨x, hx, rfl⟩ := List.mem_map.mp hp
    exact hn x.1 (hitem x hx).1 (key_inj (hl.range _ (hitem x hx).1).2 hk e)

theorem InitOk.key_item {l : List InitItem} (hl : InitOk l) {i j : InitItem} (hi : i ∈ l) (hj : j ∈ l) (e : i.key = j.key) : i = j := by
  have e1 := find_mem (f := InitItem.key) hl.keys hi
  have e2 := find_mem (f := InitItem.key) hl.keys hj
  rw [e] at e1
  exact Option.some.inj (e1.symm.trans e2)

theorem InitOk.name_item {l : List InitItem} (hl : InitOk l) {i j : InitItem} (hi : i ∈ l) (hj : j ∈ l) (e : i.name = j.name) : i = j := by
  have e1 := find_mem (f := InitItem.name) hl.names hi
  have e2 := find_mem (f := InitItem.name) hl.names hj
  rw [e] at e1
  exact Option.some.inj (e1.symm.trans e2)

theorem last_split {S : List Put} {tokens : List (String × Val)} (e : tokens = S.map (fun x => (x.1.name, x.2.1))) {i : InitItem} {v : Val} (h : lastValue tokens i = some v) :
    ∃ A x B, S = A ++ x :: B ∧ x.1.name = i.name ∧ x.2.1 = v ∧ ∀ y ∈ B, y.1.name ≠ i.name := by
  unfold lastValue at h
  rw [e, ← List.map_reverse, List.find?_map] at h
  cases hf : S.reverse.find? ((fun t : String × Val => t.1 == i.name) ∘ fun x : Put => (x.1.name, x.2.1)) with
  | none => rw [hf] at h; cases h
  | some x =>
    rw [hf] at h
    injection h with h
    obtain ⟨hp, A, B, h1, h2⟩ := List.find?_eq_some_iff_append.mp hf
    refine ⟨B.reverse, x, A.reverse, ?_, by simpa using hp, h, fun y hy => ?_⟩
    · have := congrArg List.reverse h1
      rw [List.reverse_reverse] at this
      rw [this, List.reverse_append, List.reverse_cons, List.append_assoc]
      rfl
    · have := h2 y (List.mem_reverse.mp hy)
      simpa using this

theorem last_none {S : List Put} {tokens : List (String × Val)} (e : tokens = S.map (fun x => (x.1.name, x.2.1))) {i : InitItem} (h : lastValue tokens i = none) :
    ∀ x ∈ S, x.1.name ≠ i.name := by
  intro x hx en
  unfold lastValue at h
  rw [Option.map_eq_none_iff, List.find?_eq_none] at h
  have hm : (x.1.name, x.2.1) ∈ tokens.reverse := List.mem_reverse.mpr (e ▸ List.mem_map.mpr ⟨x, hx, rfl⟩)
  exact h _ hm (by simpa using en)

theorem update_map {acc : Cell → Bool} {ver : Ver} {R : Option Cell → DMap → Prop} (hR : Follows acc R) {l : List InitItem} (hl : InitOk l) {key : Option (List Byte)}
    {tokens : List (String × Val)} {d d1 d2 : Option Cell} {m : DMap} (hd : R d m) (h1 : updateTokens acc ver l tokens d = .ok d1) (h2 : updateKey acc key d1 = .ok d2) :
    (∀ t ∈ tokens, ∃ i ∈ l, i.name = t.1 ∧ hasType t.2 i.ty = true) ∧ ∃ m', R d2 m' ∧ Updated acc ver l key tokens m m' := by
  obtain ⟨S, e1, e2, e3⟩ := update_spec hR hd h1
  refine ⟨?_, ?_⟩
  · intro t ht
    rw [e1] at ht
    obtain ⟨x, hx, rfl⟩ := List.mem_map.mp ht
    exact ⟨x.1, (e2 x hx).1, rfl, (e2 x hx).2.1⟩
  have hzero : ∀ k, k < 2 ^ 64 → k ≠ 0 → natBits 64 k ≠ natBits 64 0 := fun k hk h0 e => h0 (key_inj hk (by decide) e)
  -- the map after the fields
  have k0 : (m.over (S.map Put.entry)) (natBits 64 0) = m (natBits 64 0) := over_absent fun p hp e => by
    obtain ⟨x, hx, rfl⟩ := List.mem_map.mp hp
    have := hl.range _ (e2 x hx).1
    exact hzero _ this.2 (by omega) e
  have k1 : ∀ i ∈ l, ∀ v, lastValue tokens i = some v → ∃ sl, leafOf acc ver v = .ok sl ∧ (m.over (S.map Put.entry)) (natBits 64 i.key) = some sl := by
    intro i hi v hv
    obtain ⟨A, x, B, hS, hn, rfl, hB⟩ := last_split e1 hv
    have hx : x ∈ S := hS ▸ List.mem_append_right _ List.mem_cons_self
    have hxi : x.1 = i := hl.name_item (e2 x hx).1 hi hn
    refine ⟨x.2.2, (e2 x hx).2.2, ?_⟩
    rw [hS, List.map_append, List.map_cons]
    have hxe : x.entry = (natBits 64 i.key, x.2.2) := by unfold Put.entry; rw [hxi]
    rw [hxe]
    refine over_last fun p hp e => ?_
    obtain ⟨y, hy, rfl⟩ := List.mem_map.mp hp
    have hyS : y ∈ S := hS ▸ List.mem_append_right _ (List.mem_cons_of_mem _ hy)
    have := key_inj (hl.range _ (e2 y hyS).1).2 (hl.range _ hi).2 e
    exact hB y hy (congrArg InitItem.name (hl.key_item (e2 y hyS).1 hi this))
  have k2 : ∀ i ∈ l, lastValue tokens i = none → (m.over (S.map Put.entry)) (natBits 64 i.key) = m (natBits 64 i.key) := by
    intro i hi hv
    refine over_absent fun p hp e => ?_
    obtain ⟨y, hy, rfl⟩ := List.mem_map.mp hp
    have := key_inj (hl.range _ (e2 y hy).1).2 (hl.range _ hi).2 e
    exact last_none e1 hv y hy (congrArg InitItem.name (hl.key_item (e2 y hy).1 hi this))
  have k3 : ∀ k, k < 2 ^ 64 → (∀ i ∈ l, i.key ≠ k) → (m.over (S.map Put.entry)) (natBits 64 k) = m (natBits 64 k) := by
    intro k hk hn
    refine over_absent fun p hp e => ?_
    obtain ⟨y, hy, rfl⟩ := List.mem_map.mp hp
    exact hn y.1 (e2 y hy).1 (key_inj (hl.range _ (e2 y hy).1).2 hk e)
  cases key with
  | none =>
    injection h2 with h2
    subst h2
    exact ⟨_, e3, (fun k hk => by cases hk), fun _ => k0, k1, k2, fun k hk _ => k3 k hk⟩
  | some pk =>
    have h5 := hR _ _ _ _ _ e3 (natBits_length _ _) h2
    refine ⟨_, h5, ?_, (fun hk => by cases hk), ?_, ?_, ?_⟩
    · intro k hk
      injection hk with hk
      subst hk
      exact if_pos rfl
    · intro i hi v hv
      obtain ⟨sl, a, b⟩ := k1 i hi v hv
      have hr := hl.range _ hi
      exact ⟨sl, a, (if_neg (hzero _ hr.2 (by omega))).trans b⟩
    · intro i hi hv
      have hr := hl.range _ hi
      exact (if_neg (hzero _ hr.2 (by omega))).trans (k2 i hi hv)
    · intro k hk h0 hn
      exact (if_neg (hzero _ hk h0)).trans (k3 k hk hn)

theorem updateInit_inv {acc : Cell → Bool} {ver : Ver} {l : List InitItem} {key : Option (List Byte)} {tokens : List (String × Val)} {data c : Cell}
    (h : updateInit acc ver l key tokens data = .ok c) : ∃ d, Tlb.parseAs Tlb.dict.load data = .ok d ∧ ((key = none ∧ tokens = [] ∧ c = data) ∨
      ∃ d1 d2, updateTokens acc ver l tokens d = .ok d1 ∧ updateKey acc key d1 = .ok d2 ∧ Tlb.parseAs Tlb.dict.load c = .ok d2 ∧ c = Tlb.cellOf (Tlb.dict.enc d2)) := by
  obtain ⟨d, h1, h⟩ := ok_bind h
  refine ⟨d, h1, ?_⟩
  by_cases he : (key.isNone && tokens.isEmpty) = true
  · rw [if_pos he] at h
    injection h with h
    rw [Bool.and_eq_true] at he
    exact Or.inl ⟨by simpa using he.1, by simpa using he.2, h.symm⟩
  · rw [if_neg he] at h
    obtain ⟨d1, h2, h⟩ := ok_bind h
    obtain ⟨d2, h3, h4⟩ := ok_bind h
    exact Or.inr ⟨d1, d2, h2, h3, dictCell_inv h4⟩

end Abi
end Verif
