import Verif.AbiInitLemmas
import Verif.AbiProps
/-!
# C77: initial data of contracts comes back

What `encode_init_data` puts into the data of a contract, what `update_init_data` changes and leaves, and that `decode_init_data` reads it. The full statement, for all
descriptions and values that the library accepts, is false: the witnesses are at the end.
-/
set_option linter.unusedVariables false
set_option linter.unusedSimpArgs false
namespace Verif
namespace Abi

/-! ### Encoding -/

/-- **C77.** The data that `encode_init_data` returns is a dictionary with exactly: the public key under the key zero, under the key of each field the packed value that was given
for it, or the packed default. -/
theorem C77_encode (acc : Cell → Bool) (ver : Ver) (l : List InitItem) (hl : InitOk l) (key : List Byte) (hk : key.length = 32) (tokens : List (String × Val)) (c : Cell)
    (h : encodeInit acc ver l key tokens = .ok c) : ∃ d, Tlb.parseAs Tlb.dict.load c = .ok d ∧
      dictGet d 64 (natBits 64 0) = .ok (some ⟨bytesToBits key, []⟩) ∧
      (∀ i ∈ l, ∃ sl, leafOf acc ver (initValue tokens i) = .ok sl ∧ dictGet d 64 (natBits 64 i.key) = .ok (some sl)) ∧
      ∀ k, k < 2 ^ 64 → k ≠ 0 → (∀ i ∈ l, i.key ≠ k) → dictGet d 64 (natBits 64 k) = .ok none := by
  obtain ⟨_, _, d, m, _, h1, h2, h3⟩ := encode_map hl h
  have hg : ∀ k : Nat, dictGet d 64 (natBits 64 k) = .ok (m (natBits 64 k)) := fun k => get_any (representsC_any h2) (natBits_length _ _)
  refine ⟨d, h1, ?_, ?_, ?_⟩
  · rw [hg, h3.pubkey]
    unfold rawBits
    rw [if_pos (by omega), List.take_of_length_le (by rw [bytesToBits_length]; omega)]
  · intro i hi
    obtain ⟨sl, e1, e2⟩ := h3.items i hi
    exact ⟨sl, e1, by rw [hg, e2]⟩
  · intro k a b e
    rw [hg, h3.only k a b e]

/-- **C77.** Only values of listed fields are accepted, each of the field's type, and at most one for each field. -/
theorem C77_tokens (acc : Cell → Bool) (ver : Ver) (l : List InitItem) (hl : InitOk l) (key : List Byte) (tokens : List (String × Val)) (c : Cell)
    (h : encodeInit acc ver l key tokens = .ok c) : (tokens.map (·.1)).Nodup ∧ ∀ t ∈ tokens, ∃ i ∈ l, i.name = t.1 ∧ hasType t.2 i.ty = true :=
  ⟨(encode_map hl h).1, (encode_map hl h).2.1⟩

theorem initValue_perm {tokens tokens' : List (String × Val)} (hn : (tokens.map (·.1)).Nodup) (hp : tokens.Perm tokens') (i : InitItem) : initValue tokens i = initValue tokens' i := by
  have hn' : (tokens'.map (·.1)).Nodup := (hp.map (·.1)).nodup_iff.mp hn
  unfold initValue
  cases hf : tokens.find? (fun t => t.1 == i.name) with
  | some t =>
    have hm := hp.mem_iff.mp (List.mem_of_find?_eq_some hf)
    have e : t.1 = i.name := by simpa using List.find?_some hf
    have := find_mem (f := fun t : String × Val => t.1) hn' hm
    rw [e] at this
    rw [this]
  | none =>
    have : tokens'.find? (fun t => t.1 == i.name) = none := by
      rw [List.find?_eq_none] at hf ⊢
      exact fun x hx => hf x (hp.mem_iff.mpr hx)
    rw [this]

theorem InitOk.perm {l l' : List InitItem} (hl : InitOk l) (hp : l.Perm l') : InitOk l' :=
  ⟨(hp.map _).nodup_iff.mp hl.names, (hp.map _).nodup_iff.mp hl.keys, fun i hi => hl.range i (hp.mem_iff.mpr hi)⟩

/-- **C77.** The order in which the fields are walked (the order of a hash map) and the order of the values do not matter: if two runs both succeed, they give the same cell. -/
theorem C77_order (acc : Cell → Bool) (ver : Ver) (l l' : List InitItem) (hl : InitOk l) (hp : l.Perm l') (key : List Byte) (tokens tokens' : List (String × Val))
    (ht : tokens.Perm tokens') (c c' : Cell) (h : encodeInit acc ver l key tokens = .ok c) (h' : encodeInit acc ver l' key tokens' = .ok c') : c = c' := by
  obtain ⟨hn, _, d, m, e, _, h2, h3⟩ := encode_map hl h
  obtain ⟨_, _, d', m', e', _, h2', h3'⟩ := encode_map (hl.perm hp) h'
  have : d = d' := C23_canonical h2 h2' (h3.unique h3' (fun i => hp.mem_iff) fun i _ => initValue_perm hn ht i)
  rw [e, e', this]

theorem decodeItems_of {ver : Ver} {d : Option Cell} {val : InitItem → Val} : ∀ {l : List InitItem}, (∀ i ∈ l, decodeItem ver d i = .ok (val i)) →
    decodeItems ver d l = .ok (l.map fun i => (i.name, val i))
  | [], _ => rfl
  | i :: l, h => by
    rw [decodeItems, h i List.mem_cons_self]
    show (decodeItems ver d l >>= fun r => Except.ok ((i.name, val i) :: r)) = _
    rw [decodeItems_of fun j hj => h j (List.mem_cons_of_mem _ hj)]
    rfl

theorem decodeItem_of {ver : Ver} {d : Option Cell} {i : InitItem} {sl : Sl} {v : Val} (h1 : dictGet d 64 (natBits 64 i.key) = .ok (some sl))
    (h2 : whole false (load ver false i.ty true) sl.reader = .ok v) : decodeItem ver d i = .ok v := by
  unfold decodeItem
  rw [h1]
  exact h2

theorem initValue_type {acc : Cell → Bool} {ver : Ver} {l : List InitItem} (hl : InitOk l) {key : List Byte} {tokens : List (String × Val)} {c : Cell}
    (h : encodeInit acc ver l key tokens = .ok c) {i : InitItem} (hi : i ∈ l) : hasType (initValue tokens i) i.ty = true := by
  unfold initValue
  cases hf : tokens.find? (fun t => t.1 == i.name) with
  | none => exact default_has i.ty
  | some t =>
    obtain ⟨j, hj, e1, e2⟩ := (encode_map hl h).2.1 t (List.mem_of_find?_eq_some hf)
    have e : t.1 = i.name := by simpa using List.find?_some hf
    rw [hl.name_item hj hi (e1.trans e)] at e2
    exact e2

/-- **C77.** The fields come back: reading the data gives for every field, in whatever order they are walked, the value that was given for it, or the default, under
the names of the type. Partial: `Good` and `Regular` are needed as for values (C74), and `InitOk`. -/
theorem C77_round_partial (acc : Cell → Bool) (ver : Ver) (hv : 1 ≤ ver.major) (l l' : List InitItem) (hl : InitOk l) (hp : l.Perm l') (key : List Byte)
    (tokens : List (String × Val)) (hg : ∀ i ∈ l, Good ver ((initValue tokens i).named i.ty) ∧ Regular ver ((initValue tokens i).named i.ty)) (c : Cell)
    (h : encodeInit acc ver l key tokens = .ok c) : decodeInit ver l' c = .ok (l'.map fun i => (i.name, (initValue tokens i).named i.ty)) := by
  obtain ⟨_, _, d, m, _, h1, h2, h3⟩ := encode_map hl h
  unfold decodeInit
  rw [h1]
  refine decodeItems_of (val := fun i => (initValue tokens i).named i.ty) fun i hi => ?_
  have hi := hp.mem_iff.mpr hi
  obtain ⟨sl, e1, e2⟩ := h3.items i hi
  refine decodeItem_of (sl := sl) ?_ (leafOf_read hv (initValue_type hl h hi) (hg i hi).1 (hg i hi).2 e1 false)
  rw [get_any (representsC_any h2) (natBits_length _ _), e2]

/-- **C77.** The default of a type has the type, and the names of the type. -/
theorem C77_default (t : Ty) : hasType t.default t = true ∧ t.default.type = t := by
  refine ⟨default_has t, ?_⟩
  have := named_type t.default t (default_has t)
  rwa [default_named] at this

/-! ### Updating -/

/-- **C77.** Updating data, whatever wrote it: the given fields get the values that are given last for them, the public key is replaced if one is given, all other entries
(fields of the contract and foreign keys) stay as they are. -/
theorem C77_update (acc : Cell → Bool) (ver : Ver) (l : List InitItem) (hl : InitOk l) (key : Option (List Byte)) (tokens : List (String × Val)) (data c : Cell) (m : DMap)
    (hd : Holds64 acc data m) (h : updateInit acc ver l key tokens data = .ok c) : (∀ t ∈ tokens, ∃ i ∈ l, i.name = t.1 ∧ hasType t.2 i.ty = true) ∧
      ∃ m', Holds64 acc c m' ∧ Updated acc ver l key tokens m m' := by
  obtain ⟨d, h1, hd⟩ := hd
  obtain ⟨d', h1', h⟩ := updateInit_inv h
  rw [h1] at h1'
  injection h1' with h1'
  subst h1'
  rcases h with ⟨rfl, rfl, rfl⟩ | ⟨d1, d2, e1, e2, e3, _⟩
  · refine ⟨(fun t ht => by cases ht), m, ⟨d, h1, hd⟩, ?_⟩
    exact ⟨(fun k hk => by cases hk), fun _ => rfl, (fun i _ v hv => by cases hv), fun _ _ _ => rfl, fun _ _ _ _ => rfl⟩
  · obtain ⟨a, m', b, c⟩ := update_map (follows_any acc) hl hd e1 e2
    exact ⟨a, m', ⟨d2, e3, b⟩, c⟩

/-- **C77.** Reading updated data: a field that was given has its new value, a field that was not given is read just as before, whether it could be read or not. Partial as
`C77_round_partial`. -/
theorem C77_update_reads_partial (acc : Cell → Bool) (ver : Ver) (hv : 1 ≤ ver.major) (l : List InitItem) (hl : InitOk l) (key : Option (List Byte))
    (tokens : List (String × Val)) (data c : Cell) (m : DMap) (hd : Holds64 acc data m) (h : updateInit acc ver l key tokens data = .ok c) (i : InitItem) (hi : i ∈ l) :
    (∀ v, lastValue tokens i = some v → Good ver (v.named i.ty) → Regular ver (v.named i.ty) → decodeInit ver [i] c = .ok [(i.name, v.named i.ty)]) ∧
      (lastValue tokens i = none → decodeInit ver [i] c = decodeInit ver [i] data) := by
  obtain ⟨ht, m', ⟨d', h1', hd'⟩, hu⟩ := C77_update acc ver l hl key tokens data c m hd h
  obtain ⟨d, h1, hd⟩ := hd
  unfold decodeInit
  rw [h1, h1']
  refine ⟨fun v hl' hg hr => ?_, fun hn => ?_⟩
  · obtain ⟨sl, e1, e2⟩ := hu.items i hi v hl'
    have hty : hasType v i.ty = true := by
      unfold lastValue at hl'
      cases hf : tokens.reverse.find? (fun t => t.1 == i.name) with
      | none => rw [hf] at hl'; cases hl'
      | some t =>
        rw [hf] at hl'
        injection hl' with hl'
        subst hl'
        obtain ⟨j, hj, a1, a2⟩ := ht t (List.mem_reverse.mp (List.mem_of_find?_eq_some hf))
        have e : t.1 = i.name := by simpa using List.find?_some hf
        rw [hl.name_item hj hi (a1.trans e)] at a2
        exact a2
    refine decodeItems_of (val := fun i => v.named i.ty) fun j hj => ?_
    rw [List.mem_singleton.mp hj]
    refine decodeItem_of (sl := sl) ?_ (leafOf_read hv hty hg hr e1 false)
    rw [get_any hd' (natBits_length _ _), e2]
  · have e : decodeItem ver d' i = decodeItem ver d i := by
      unfold decodeItem
      rw [get_any hd' (natBits_length _ _), get_any hd (natBits_length _ _), hu.others i hi hn]
    show decodeItems ver d' [i] = decodeItems ver d [i]
    rw [decodeItems, decodeItems, e]
    rfl

/-- **C77.** Updating encoded data is encoding with the new values: if both succeed, the cells are the same. -/
theorem C77_update_encode (acc : Cell → Bool) (ver : Ver) (l : List InitItem) (hl : InitOk l) (key key' : List Byte) (tokens tokens' merged : List (String × Val))
    (hm : ∀ i ∈ l, initValue merged i = (lastValue tokens' i).getD (initValue tokens i)) (c c' c'' : Cell) (h : encodeInit acc ver l key tokens = .ok c)
    (h' : updateInit acc ver l (some key') tokens' c = .ok c') (h'' : encodeInit acc ver l key' merged = .ok c'') : c' = c'' := by
  obtain ⟨_, _, d, m, e, h1, h2, h3⟩ := encode_map hl h
  obtain ⟨_, _, d0, m0, e0, _, h20, h30⟩ := encode_map hl h''
  obtain ⟨d', h1', hx⟩ := updateInit_inv h'
  rw [h1] at h1'
  injection h1' with h1'
  subst h1'
  rcases hx with ⟨hx, _⟩ | ⟨d1, d2, e1, e2, e3, e4⟩
  · cases hx
  obtain ⟨_, m', b, hu⟩ := update_map (follows_canonical acc) hl h2 e1 e2
  have hm' : InitMap acc ver l key' merged m' := by
    refine ⟨hu.pubkey key' rfl, ?_, ?_⟩
    · intro i hi
      rw [hm i hi]
      cases hv : lastValue tokens' i with
      | none =>
        obtain ⟨sl, a1, a2⟩ := h3.items i hi
        exact ⟨sl, a1, (hu.others i hi hv).trans a2⟩
      | some v => exact hu.items i hi v hv
    · intro k hk h0 hn
      exact (hu.only k hk h0 hn).trans (h3.only k hk h0 hn)
  have : d2 = d0 := C23_canonical b h20 (hm'.unique h30 (fun _ => Iff.rfl) fun _ _ => rfl)
  rw [e4, e0, this]

/-! ### Storage fields -/

/-- **C77.** Storage fields come back. Partial as `C77_round_partial`. -/
theorem C77_fields_partial (acc : Cell → Bool) (ver : Ver) (hv : 1 ≤ ver.major) (fields : Tys) (tokens : Items) (hg : Good ver (.tuple (tokens.named fields)))
    (hr : Regular ver (.tuple (tokens.named fields))) (b : CellB Cell) (h : encodeFields acc ver fields tokens = .ok b) (part : Bool) :
    decodeFields ver part fields (Sl.reader ⟨b.inner.bits, b.refs⟩) = .ok (tokens.named fields) := by
  unfold encodeFields at h
  by_cases ht : haveTypes tokens fields = true
  · rw [if_pos ht] at h
    have hl : leafOf acc ver (.tuple tokens) = .ok ⟨b.inner.bits, b.refs⟩ := by
      unfold leafOf
      have : write acc ver (.tuple tokens) = writeItems acc ver tokens := by funext s; simp only [write]
      rw [this, h]
      rfl
    have hn : (Val.tuple tokens).named (.tuple fields) = .tuple (tokens.named fields) := by simp only [Val.named]
    have := leafOf_read hv (v := .tuple tokens) (t := .tuple fields) (by simpa only [hasType] using ht) (by rwa [hn]) (by rwa [hn]) hl part
    rw [hn] at this
    unfold whole at this
    have hld : load ver part (.tuple fields) true = (loadItems ver part fields true >>= fun l => pure (Val.tuple l)) := by
      simp only [load]
    rw [hld] at this
    unfold decodeFields whole
    cases hx : loadItems ver part fields true (Sl.reader ⟨b.inner.bits, b.refs⟩) with
    | mk r s' =>
      cases r with
      | error e => rw [Prog.bind_err hx] at this; cases this
      | ok items =>
        rw [Prog.bind_ok hx] at this
        change (checkRemaining part s' >>= fun _ => Except.ok (Val.tuple items)) = _ at this
        cases hc : checkRemaining part s' with
        | error e => rw [hc] at this; cases this
        | ok u =>
          rw [hc] at this
          injection this with this
          injection this with this
          rw [← this]
          show (checkRemaining part s' >>= fun _ => Except.ok items) = _
          rw [hc]
          rfl
  · rw [if_neg ht] at h; cases h

/-! ### Functions and events by id -/

/-- **C77.** If the ids are unique, a function is found by its id, whatever the order of the hash map; no function is found for other ids. -/
theorem C77_find_function (l : List Func) (input : Bool) (id : Nat) (hn : (l.map fun f => if input then f.inputId else f.outputId).Nodup) :
    (∀ f, findFunction l id input = some f ↔ f ∈ l ∧ (if input then f.inputId else f.outputId) = id) := by
  have hp : (fun f : Func => input && f.inputId == id || !input && f.outputId == id) = fun f => (if input then f.inputId else f.outputId) == id := by
    funext f
    cases input <;> simp
  intro f
  unfold findFunction
  rw [hp]
  refine ⟨fun h => ⟨List.mem_of_find?_eq_some h, by simpa using List.find?_some h⟩, fun ⟨h1, h2⟩ => ?_⟩
  rw [← h2]
  exact find_mem (f := fun f : Func => if input then f.inputId else f.outputId) hn h1

/-- **C77.** The same for events. -/
theorem C77_find_event (l : List Event) (id : Nat) (hn : (l.map Event.id).Nodup) : ∀ e, findEvent l id = some e ↔ e ∈ l ∧ e.id = id := by
  intro f
  unfold findEvent
  refine ⟨fun h => ⟨List.mem_of_find?_eq_some h, by simpa using List.find?_some h⟩, fun ⟨h1, h2⟩ => ?_⟩
  rw [← h2]
  exact find_mem (f := Event.id) hn h1

/-! ### Examples -/

/-- A description with two fields. -/
def exItems : List InitItem := [⟨"nonce", 1, .uint 32⟩, ⟨"owner", 2, .tuple (.cons "on" .bool (.cons "code" .cell .nil))⟩]
def exPub : List Byte := List.replicate 32 7
def exGiven : List (String × Val) := [("nonce", .uint 32 5)]

/-- The fields of data, in a form that can be compared. -/
def shown (r : Except Err (List (String × Val))) : Option (List (String × List Int)) := r.toOption.map (·.map fun x => (x.1, x.2.print))

theorem exItems_ok : InitOk exItems := ⟨by decide, by decide, by decide⟩

example : (encodeInit anyCell ⟨2, 2⟩ exItems exPub exGiven).isOk = true := by decide +kernel

example : shown (encodeInit anyCell ⟨2, 2⟩ exItems exPub exGiven >>= decodeInit ⟨2, 2⟩ exItems) =
    some [("nonce", (Val.uint 32 5).print), ("owner", (Val.tuple (.cons "on" (.bool false) (.cons "code" (.cell (.mk false [] [])) .nil))).print)] := by decide +kernel

/-- The hypotheses of `C77_round_partial` hold here. -/
example : ∀ i ∈ exItems, Good ⟨2, 2⟩ ((initValue exGiven i).named i.ty) ∧ Regular ⟨2, 2⟩ ((initValue exGiven i).named i.ty) := by
  intro i hi
  have h2 : ∀ v, Regular ⟨2, 2⟩ v := fun v => Or.inl rfl
  rcases List.mem_cons.mp hi with rfl | hi
  · exact ⟨⟨by decide, by decide, by decide⟩, h2 _⟩
  · rw [List.mem_singleton.mp hi]
    refine ⟨?_, h2 _⟩
    show Good ⟨2, 2⟩ (.tuple (.cons "on" (.bool false) (.cons "code" (.cell (.mk false [] [])) .nil)))
    simp [Good, GoodItems]

/-- An update of one field leaves the other. -/
example : shown (encodeInit anyCell ⟨2, 2⟩ exItems exPub exGiven >>= updateInit anyCell ⟨2, 2⟩ exItems none
    [("owner", .tuple (.cons "" (.bool true) (.cons "" (.cell (.mk false [] [])) .nil)))] >>= decodeInit ⟨2, 2⟩ exItems) =
    some [("nonce", (Val.uint 32 5).print), ("owner", (Val.tuple (.cons "on" (.bool true) (.cons "code" (.cell (.mk false [] [])) .nil))).print)] := by decide +kernel

/-- Values of fields that are not listed, of other types, or given twice are refused. -/
example : (encodeInit anyCell ⟨2, 2⟩ exItems exPub [("other", .uint 32 5)]).isOk = false ∧ (encodeInit anyCell ⟨2, 2⟩ exItems exPub [("nonce", .uint 64 5)]).isOk = false ∧
    (encodeInit anyCell ⟨2, 2⟩ exItems exPub [("nonce", .uint 32 5), ("nonce", .uint 32 6)]).isOk = false ∧
    (encodeInit anyCell ⟨2, 2⟩ exItems exPub exGiven >>= updateInit anyCell ⟨2, 2⟩ exItems none [("nonce", .uint 64 5)]).isOk = false := by decide +kernel

/-- Storage fields. -/
example : ((encodeFields anyCell ⟨2, 2⟩ (.cons "a" (.uint 8) (.cons "b" .bool .nil)) (.cons "" (.uint 8 3) (.cons "" (.bool true) .nil))) >>= fun b =>
    decodeFields ⟨2, 2⟩ false (.cons "a" (.uint 8) (.cons "b" .bool .nil)) (Sl.reader ⟨b.inner.bits, b.refs⟩)).toOption.map (fun l => (Val.tuple l).print) =
    some (Val.tuple (.cons "a" (.uint 8 3) (.cons "b" (.bool true) .nil))).print := by decide +kernel

/-! ### What fails -/

/-- Whether the data can be made depends on the order of the hash map: a value that is too large for the only leaf of a dictionary fits beside another one. -/
def wideItem : InitItem := ⟨"wide", 2, .tuple (.cons "a" (.uint 256) (.cons "b" (.uint 256) (.cons "c" (.uint 256) (.cons "d" (.uint 192) .nil))))⟩
def slimItem : InitItem := ⟨"slim", 1, .uint 32⟩

theorem C77_order_decides : InitOk [slimItem, wideItem] ∧ [slimItem, wideItem].Perm [wideItem, slimItem] ∧
    (encodeInit anyCell ⟨2, 2⟩ [slimItem, wideItem] exPub []).isOk = true ∧ (encodeInit anyCell ⟨2, 2⟩ [wideItem, slimItem] exPub []).isOk = false := by
  refine ⟨⟨by decide, by decide, by decide⟩, .swap _ _ _, ?_⟩
  decide +kernel

/-- A field with the key zero is accepted, its value is overwritten by the public key, and read back as the public key. -/
theorem C77_zero_key : shown (encodeInit anyCell ⟨2, 2⟩ [⟨"a", 0, .uint 256⟩] exPub [("a", .uint 256 5)] >>= decodeInit ⟨2, 2⟩ [⟨"a", 0, .uint 256⟩]) =
    some [("a", (Val.uint 256 (natOfBits (bytesToBits exPub))).print)] ∧ (Val.uint 256 (natOfBits (bytesToBits exPub))).print ≠ (Val.uint 256 5).print := by decide +kernel

/-- Two fields with one key are accepted; both are read as the one that was written last, and of two defaults that depends on the order of the hash map. -/
theorem C77_shared_key : shown (encodeInit anyCell ⟨2, 2⟩ [⟨"a", 1, .uint 8⟩, ⟨"b", 1, .uint 8⟩] exPub [("a", .uint 8 5), ("b", .uint 8 6)] >>=
      decodeInit ⟨2, 2⟩ [⟨"a", 1, .uint 8⟩, ⟨"b", 1, .uint 8⟩]) = some [("a", (Val.uint 8 6).print), ("b", (Val.uint 8 6).print)] ∧
    (encodeInit anyCell ⟨2, 2⟩ [⟨"a", 1, .uint 8⟩, ⟨"b", 1, .bool⟩] exPub [] >>= decodeInit ⟨2, 2⟩ [⟨"b", 1, .bool⟩]).isOk = true ∧
    (encodeInit anyCell ⟨2, 2⟩ [⟨"b", 1, .bool⟩, ⟨"a", 1, .uint 8⟩] exPub [] >>= decodeInit ⟨2, 2⟩ [⟨"b", 1, .bool⟩]).isOk = false := by decide +kernel

/-- With explicit ids two functions can have one id; which of them is found depends on the order of the hash map. -/
theorem C77_find_ambiguous (f g : Func) (h : f.inputId = g.inputId) : findFunction [f, g] f.inputId true = some f ∧ findFunction [g, f] f.inputId true = some g := by
  constructor
  · unfold findFunction
    rw [List.find?_cons_of_pos (by simp)]
  · unfold findFunction
    rw [List.find?_cons_of_pos (by simp [h])]

end Abi
end Verif
