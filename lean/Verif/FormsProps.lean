import Verif.FormsMore
/-
C93: values as data of `serde`. What a value is written to is read back as the same value, in readable formats and in others; what is
read is valid; the exceptions.

The specification (`FormsLemmas`): `Back F r ok` - every value with `ok` is written, and what is written is read as this value;
`Only F r ok` - whatever is read has `ok`; `r` says whether the format is readable.
-/
set_option linter.unusedVariables false
namespace Verif
namespace Form

/-! ### Scalars -/

/-- **C93, scalars.** Integers of variable length, split depths, hashes, shards, addresses and block identifiers come back in both kinds of formats. -/
theorem C93_scalars (r : Bool) :
    (∀ k : VarKind, Back (varint k) r (fun v => v ≤ k.max)) ∧
    Back splitDepth r (fun v => 0 < v ∧ v ≤ 255) ∧
    Back hash r (fun h => h.length = 32) ∧
    Back shard r (fun s => IsI32 s.workchain ∧ ShardIdent.new s.workchain s.pfx = some s) ∧
    Back stdAddr r (fun a => a.Ok ∧ a.anycast = none) ∧
    Back intAddr r (fun a => ∃ s : StdAddr, a = .std s ∧ s.Ok ∧ s.anycast = none) ∧
    Back extAddr r (fun a => a.len ≤ 511 ∧ HoldsBits a.data a.len) ∧
    Back blockIdShort r (fun b => IsI32 b.1.workchain ∧ ShardIdent.new b.1.workchain b.1.pfx = some b.1 ∧ b.2 < 2 ^ 32) ∧
    Back blockId r (fun b => IsI32 b.shard.workchain ∧ ShardIdent.new b.shard.workchain b.shard.pfx = some b.shard ∧ b.seqno < 2 ^ 32 ∧
      b.rootHash.length = 32 ∧ b.fileHash.length = 32) :=
  ⟨fun k => back_varint r k, back_splitDepth r, back_hash r, back_shard r, back_stdAddr r, back_intAddr r,
   (by cases r with
    | true => exact back_extAddr.1
    | false => exact back_extAddr.2.mono fun a h => h.1),
   (back_struct (good_and (good_field _ (back_shard r)) (good_field _ (back_nat r _)) (by decide))).mono
     fun b h => ⟨⟨h.1, h.2.1⟩, by have := h.2.2; show b.2 ≤ _; omega⟩,
   back_struct (good_as (good_and (good_field _ (back_shard r)) (good_and (good_field _ (back_nat r _)) (good_and (good_field _ (back_hash r))
     (good_field _ (back_hash r)) (by decide)) (by decide)) (by decide))
     fun b h => ⟨⟨⟨h.1, h.2.1⟩, by have := h.2.2.1; show b.seqno ≤ _; omega, h.2.2.2.1, h.2.2.2.2⟩, rfl⟩)⟩

/-- **C93, scalars are checked.** What is read of these types is a valid value, whatever the data is. -/
theorem C93_checked (r : Bool) :
    (∀ k : VarKind, Only (varint k) r (fun v => v ≤ k.max)) ∧
    Only splitDepth r (fun v => 0 < v ∧ v ≤ 255) ∧
    Only hash r (fun h => h.length = 32) ∧
    Only shard r (fun s => IsI32 s.workchain ∧ ShardIdent.new s.workchain s.pfx = some s) ∧
    Only stdAddr r (fun a => a.Ok ∧ a.anycast = none) ∧
    Only intAddr r (fun a => ∃ s : StdAddr, a = .std s ∧ s.Ok ∧ s.anycast = none) ∧
    Only blockIdShort r (fun b => IsI32 b.1.workchain ∧ ShardIdent.new b.1.workchain b.1.pfx = some b.1 ∧ b.2 < 2 ^ 32) ∧
    Only blockId r (fun b => IsI32 b.shard.workchain ∧ ShardIdent.new b.shard.workchain b.shard.pfx = some b.shard ∧ b.seqno < 2 ^ 32 ∧
      b.rootHash.length = 32 ∧ b.fileHash.length = 32) := by
  refine ⟨fun k => only_varint r k, only_splitDepth r, only_hash r, only_shard r, only_stdAddr r, ?_, ?_, ?_⟩
  · intro x a h
    have h : (stdAddr.de r x).map IntAddr.std = some a := h
    obtain ⟨s, h1, h2⟩ := Option.map_eq_some_iff.1 h
    exact ⟨s, h2.symm, only_stdAddr r _ _ h1⟩
  · intro x b h
    have := only_struct (only_and (only_field _ (only_shard r)) (only_field _ (only_nat r (2 ^ 32 - 1)))) x b h
    exact ⟨this.1.1, this.1.2, by have := this.2; omega⟩
  · refine only_struct (only_as (only_and (only_field _ (only_shard r)) (only_and (only_field _ (only_nat r (2 ^ 32 - 1)))
      (only_and (only_field _ (only_hash r)) (only_field _ (only_hash r))))) fun p h => ?_)
    exact ⟨h.1.1, h.1.2, by have := h.2.1; show p.2.1 < _; omega, h.2.2.1, h.2.2.2⟩

/-- In formats that are not readable two types are not checked: a number of 249 bits and an address of 3 bits with a fourth one set are read. -/
theorem C93_unchecked_partial :
    (∃ x v, v248.de false x = some v ∧ ¬ v.val < 2 ^ 248) ∧ (∃ x a, extAddr.de false x = some a ∧ ¬ HoldsBits a.data a.len) := by
  refine ⟨⟨.seq [.num (2 ^ 120), .num 0], ⟨2 ^ 120, 0⟩, by decide +kernel, by decide +kernel⟩,
    ⟨.seq [.num 3, .seq [.num 0xf0]], ⟨3, [0xf0]⟩, by decide +kernel, ?_⟩⟩
  intro h
  have := Bitstring.Packs.unique h.packs.2.1 (packBytes_packs _)
  revert this
  decide +kernel

/-- **C93, 248-bit integers.** In two words every value comes back. As text those below `2^128 + 4` and those from `10^64` on do
(C54 has the parser); the full statement would be `Back v248 true (fun v => okAmount v)`. -/
theorem C93_v248_partial : Back v248 false (fun v => v.WF) ∧
    ∀ v, okAmount v → ∃ x, v248.ser true v = some x ∧ (v248.de true x = some v ↔ v.val < 2 ^ 128 + 4 ∨ 10 ^ 64 ≤ v.val) :=
  ⟨back_v248, fun v h => back_v248_text h.1 h.2⟩

/-- An address with anycast is written without a complaint, but does not come back: the text is refused, other formats lose the anycast. -/
theorem C93_anycast_lost {a : StdAddr} {c : Anycast} (h : a.anycast = some c) :
    (∃ t, stdAddr.ser true a = some (.str t) ∧ stdAddr.de true (.str t) = none) ∧
    (a.Ok → ∃ x, stdAddr.ser false a = some x ∧ stdAddr.de false x = some { a with anycast := none }) := by
  refine ⟨⟨a.display, rfl, ?_⟩, fun ho => ?_⟩
  · show (StdAddr.fromStr a.display).toOption = none
    cases e : StdAddr.fromStr a.display with
    | error _ => rfl
    | ok b => exact absurd e (StdAddr.C47_anycast_text h b)
  · obtain ⟨x, h1, h2⟩ := back_stdAddr false { a with anycast := none } ⟨⟨trivial, ho.2.1, ho.2.2⟩, rfl⟩
    exact ⟨x, h1, h2⟩

/-- Every address of variable length is written as the same text, which is not read as an address. -/
theorem C93_var_lost (r : Bool) (a : VarAddr) : intAddr.ser r (.var a) = some (.str "varaddr".toList) ∧ intAddr.de r (.str "varaddr".toList) = none := by
  refine ⟨rfl, ?_⟩
  cases r <;> decide +kernel

/-! ### Structures -/

/-- **C93, fields.** A structure comes back from its fields in any order, with any other fields among them; a name that is given twice is
refused for a required field. -/
theorem C93_fields {α : Type} {A : Fields α} {r : Bool} {ok : α → Prop} (h : Good A r ok) {v : α} (hv : ok v) :
    ∃ l, (struct A).ser r v = some (mapOf l) ∧
      ∀ l' other : Entries, (∀ e ∈ other, e.1 ∉ A.names) → l'.Perm (l ++ other) → (struct A).de r (mapOf l') = some v := by
  obtain ⟨l, h1, h2, h3⟩ := h.back v hv
  refine ⟨l, ?_, fun l' other ho hp => ?_⟩
  · show (A.ser r v).map _ = _; rw [h1]; rfl
  · rw [struct_de, ← h3]
    refine h.loc _ _ fun n hn => ?_
    rw [pick_perm hp]
    refine pick_append fun g => ?_
    obtain ⟨e, he, e2⟩ := List.mem_map.1 g
    exact ho e he (e2 ▸ hn)

/-- A field that is given twice is an error. -/
theorem C93_twice {α : Type} (n : List Char) (F : Form α) (r : Bool) (l : Entries) (h : 2 ≤ (l.filter fun e => e.1 == n).length) :
    (struct (field n F)).de r (mapOf l) = none := by
  rw [struct_de]
  show (match pick n l with | some (some x) => F.de r x | _ => none) = none
  unfold pick
  revert h
  generalize l.filter (fun e => e.1 == n) = k
  intro h
  match k, h with
  | _ :: _ :: _, _ => rfl

/-! ### Cells -/

/-- **C93, cells.** A cell comes back from its text and from its bytes, unless two different cells in it have the same hash. A value
stored in a cell comes back from its bytes. -/
theorem C93_cells (H : Hasher) (r : Bool) : Back (cell H) r (Carried H) ∧
    ∀ (α : Type) (T : Tlb α), T.Sound → Back (repr H T) r (fun v => T.ok v ∧ (T.enc v).Fits ∧ Carried H (Tlb.cellOf (T.enc v))) :=
  ⟨back_cell H r, fun α T hT => back_repr H hT r⟩

/-- **C93, lazy values.** In a readable format the value itself is written: a cell with the canonical encoding comes back, and from any
cell that holds the value the canonical cell comes back. In other formats every ordinary cell does, and no exotic one is read. -/
theorem C93_lazy (H : Hasher) {α : Type} {T : Tlb α} (hT : T.Sound) {F : Form α} {ok : α → Prop} (bF : Back F true ok) :
    (∀ v, T.ok v → ok v → (T.enc v).Fits → (Tlb.cellOf (T.enc v)).WF H → ∀ c, Tlb.lazyLoad T c = .ok v →
      ∃ x, (lazy H T F).ser true c = some x ∧ F.ser true v = some x ∧ (lazy H T F).de true x = some (Tlb.cellOf (T.enc v))) ∧
    Back (lazy H T F) true (fun c => c.WF H ∧ ∃ v, T.ok v ∧ ok v ∧ (T.enc v).Fits ∧ c = Tlb.cellOf (T.enc v)) ∧
    Back (lazy H T F) false (fun c => Carried H c ∧ c.exotic = false) ∧
    Only (lazy H T F) false (fun c => c.exotic = false) := by
  refine ⟨fun v h1 h2 h3 h4 c hc => lazy_shown H hT bF h1 h2 h3 h4 hc, back_lazy_text H hT bF, back_lazy_bytes H T F, ?_⟩
  intro x c h
  have h : (match (cell H).de false x with | some c => if c.exotic then none else some c | none => none) = some c := h
  split at h
  · split at h
    · cases h
    · rename_i g
      injection h with h
      subst h
      simpa using g
  · cases h

/-! ### Dictionaries -/

/-- **C93, dictionaries.** A dictionary in canonical form whose keys and values come back comes back itself, whatever the order in which
the hash map yields the entries, if all tries over such values can be built (that is, if there is room for the longest labels). -/
theorem C93_dict {κ β : Type} [DecidableEq κ] {T : DictType κ β} {okK : κ → Prop} {encK : κ → Bits} {okV : β → Prop} {R : β → Enc Cell → Prop}
    {enc : β → Enc Cell} {H : Hasher} {sh : Shuffle} {K : Form κ} {V : Form β} {okW : β → Prop} {B D : Nat} (hsh : Fair sh)
    (hK : KeyCodes T.key okK encK) (hV : Codes okV T.store T.load R enc) (hf : ∀ v, okV v → (enc v).Fits)
    (hB : 2 + bitsForLen T.key.bits + T.key.bits + B ≤ 1023) (hD : D + T.key.bits ≤ 65535)
    (hQ : ∀ v, okV v → okW v → RefsVal H B D (slOf (enc v))) (bK : Back K true okK) (bV : Back V true okW) :
    Back (dict H sh T K V) true (fun d => ∃ tm, IsDictC T okK encK okV enc (Boc.emptyContext H) d tm ∧ ∀ x v, okK x → tm x = some v → okW v) :=
  back_dict hsh hK (by omega) hV hf (fitsAll_refs hB hD) hQ bK bV

/-- In formats that are not readable a dictionary is the cell with its root. -/
theorem C93_dict_bytes {κ β : Type} [DecidableEq κ] (T : DictType κ β) (H : Hasher) (sh : Shuffle) (K : Form κ) (V : Form β) :
    Back (dict H sh T K V) false (fun d => Carried H (Tlb.cellOf (Tlb.dict.enc d))) := by
  intro d hd
  refine back_repr H Tlb.dict_sound false d ⟨?_, ?_, hd⟩
  · cases d <;> trivial
  · cases d with
    | none => exact ⟨by show (1 : Nat) ≤ 1023; decide, by show (0 : Nat) ≤ 4; decide⟩
    | some c => exact ⟨by show (1 : Nat) ≤ 1023; decide, by show (1 : Nat) ≤ 4; decide⟩

/-- **C93, reading dictionaries.** Of a map with any entries in any order a canonical dictionary is made, in which every key has the
last value that was given for it. Two readings that succeed give the same dictionary. -/
theorem C93_dict_read {κ β : Type} [DecidableEq κ] {T : DictType κ β} {okK : κ → Prop} {encK : κ → Bits} {okV : β → Prop} {R : β → Enc Cell → Prop}
    {enc : β → Enc Cell} {H : Hasher} {sh : Shuffle} {K : Form κ} {V : Form β} (hsh : Fair sh)
    (hK : KeyCodes T.key okK encK) (hb : T.key.bits ≤ 1023) (hV : Codes okV T.store T.load R enc) (hf : ∀ v, okV v → (enc v).Fits)
    {m : List (SV × SV)} {l : List (κ × β)} (hl : readMap K (fun _ => V) true m = some l) (ho : ∀ e ∈ l, okK e.1 ∧ okV e.2)
    {d : Option Cell} (h : (dict H sh T K V).de true (.map m) = some d) :
    (∃ tm, IsDictC T okK encK okV enc (Boc.emptyContext H) d tm ∧
      ∀ x, tm x = (l.reverse.find? fun e => e.1 = x).map Prod.snd) ∧
    ∀ sh' d', Fair sh' → (dict H sh' T K V).de true (.map m) = some d' → d' = d := by
  obtain ⟨tm, h1, h2⟩ := dict_read hsh hK hb hV hf hl ho h
  refine ⟨⟨tm, h1, fun x => by rw [h2]; exact puts_last l x⟩, fun sh' d' hsh' h' => ?_⟩
  obtain ⟨tm', h1', h2'⟩ := dict_read hsh' hK hb hV hf hl ho h'
  exact C57_canonical h1' h1 fun x _ => by rw [h2, h2']

/-- Values of 123 bytes. -/
def longType : DictType Nat (List Byte) := ⟨Key.u32, (Tlb.bytes 123).store, (Tlb.bytes 123).load⟩

/-- Two entries that both fit into a dictionary, but not each of them alone. -/
def exLong : SV := .map [(.num 0, .seq (List.replicate 123 (.num 1))), (.num (2 ^ 31), .seq (List.replicate 123 (.num 2)))]

/-- Without room for the longest labels it depends on the order of the hash map whether a dictionary is read: the same map is read in one
order and refused in the other, though the dictionary exists. -/
theorem C93_order_matters :
    Fair (fun _ l => l) ∧ Fair (fun _ l => l.reverse) ∧
    (match (dict toyHasher (fun _ l => l) longType (nat (2 ^ 32 - 1)) (vec byte)).de true exLong with
      | some (some c) => c.refs.length == 2
      | _ => false) = true ∧
    (match (dict toyHasher (fun _ l => l.reverse) longType (nat (2 ^ 32 - 1)) (vec byte)).de true exLong with
      | none => true
      | some _ => false) = true := by
  refine ⟨fun γ l => List.Perm.refl _, fun γ l => List.reverse_perm l, ?_, ?_⟩ <;> decide +kernel

/-- **C93, sets of keys.** A dictionary without values is a list of its keys: it comes back, and of any list the dictionary with exactly
these keys is made. A list that must not be empty is refused if it is. -/
theorem C93_keys {κ : Type} [DecidableEq κ] {k : KeyType κ} {okK : κ → Prop} {encK : κ → Bits} {H : Hasher} {K : Form κ} (hK : KeyCodes k okK encK)
    (hb : 2 + bitsForLen k.bits + k.bits ≤ 1023) (r nonEmpty : Bool) (bK : Back K r okK) :
    Back (keys H nonEmpty k K) r (fun d => (∃ has, KeysOf H k okK encK d has) ∧ (nonEmpty = true → d ≠ none)) ∧
    (∀ x ks, (vec K).de r x = some ks → (∀ y ∈ ks, okK y) → (nonEmpty = true → ks ≠ []) →
      ∃ d, (keys H nonEmpty k K).de r x = some d ∧ KeysOf H k okK encK d (fun y => decide (y ∈ ks))) ∧
    (∀ x, (vec K).de r x = some [] → nonEmpty = true → (keys H nonEmpty k K).de r x = none) := by
  refine ⟨back_keys hK hb r nonEmpty bK, fun x ks h ho hne => keys_read hK hb r nonEmpty h ho hne, fun x h hn => ?_⟩
  subst hn
  show (match (vec K).de r x with
    | some ks => if true && ks.isEmpty then none else setAll (keysType k) (Boc.emptyContext H) none (ks.map fun k => (k, ()))
    | none => none) = none
  rw [h]; rfl

/-- **C93, parameters.** A canonical dictionary of parameters comes back: the known ones through the forms of their values, the others as cells. -/
theorem C93_config (H : Hasher) (P : Nat → Option (Form Cell)) (okP : Nat → Cell → Prop) (bP : ∀ id F, P id = some F → Back F true (okP id)) :
    Back (config H P) true (fun d => ∃ tm, IsDictC Config.params okId (natBits 32) (fun _ => True) Enc.ref (Boc.emptyContext H) d tm ∧
      ∀ id c, okId id → tm id = some c → okParam H P okP id c ∧ Shallow H 65503 c) :=
  back_config H P okP bP

/-! ### Messages -/

/-- **C93, messages.** In readable formats currencies, state inits and headers come back; so do owned messages whose body is a whole
ordinary cell. -/
theorem C93_message (H : Hasher) {sh : Shuffle} (hsh : Fair sh) :
    Back (currency H sh) true (okCurrency H) ∧ Back (stateInit H sh) true (okInit H) ∧ Back (msgInfo H sh) true (okInfo H) ∧
    ∀ (m : Msg MsgInfo (SliceRange × Cell)), okInfo H m.info → (∀ i, m.init = some i → okInit H i) →
      m.body.1 = fullRange m.body.2 → m.body.2.exotic = false → Carried H m.body.2 →
      ∃ x, messageSer H sh (msgInfo H sh) (partsBody (Boc.emptyContext H) (Boc.emptyContext H)) m = some x ∧ messageDe H sh (msgInfo H sh) x = some m := by
  refine ⟨back_currency H hsh, back_stateInit H hsh, back_msgInfo H hsh, ?_⟩
  rintro ⟨info, init, ⟨_, c⟩, layout⟩ h1 h2 h3 h4 h5
  have h3 : _ = fullRange c := h3
  subst h3
  obtain ⟨e, b, rs⟩ := c
  have h4 : e = false := h4
  subst h4
  have hwf := h5.1
  have hf : (Enc.Fits ((b, rs) : Enc Cell)) := Boc.wf_limits hwf
  have hok : partsOk (Boc.emptyContext H) (Boc.emptyContext H) false (fullRange (.mk false b rs), .mk false b rs) :=
    ⟨⟨Nat.zero_le _, Nat.le_refl _, Nat.zero_le _, Nat.le_refl _⟩, hf,
     fun _ => ⟨rfl, by rw [show (Cell.mk false b rs) = Tlb.cellOf (b, rs) from rfl, partsContents_full]; exact (Boc.C91_context H _).2 hwf⟩, fun h => by cases h⟩
  have hw := (partsBody_sound (Boc.emptyContext H) (Boc.emptyContext H)).writes false _ hok
  have he : partsEnc false (fullRange (.mk false b rs), .mk false b rs) = ((b, rs) : Enc Cell) := partsContents_full (b, rs)
  rw [he] at hw
  have hc := bodyCell_ok (H := H) (BK := partsBody (Boc.emptyContext H) (Boc.emptyContext H)) hw hf hwf
  obtain ⟨x, g1, g2⟩ := back_struct (back_messageFields H hsh (back_msgInfo H hsh)) (info, init, .mk false b rs, layout) ⟨h1, h2, h5, fun _ _ => trivial⟩
  refine ⟨x, ?_, ?_⟩
  · unfold messageSer
    dsimp only
    rw [hc]; exact g1
  · unfold messageDe
    rw [g2]; rfl

/-- **C93, the message of a transaction** is kept in a cell; a canonical cell is built again from what is shown of it. -/
theorem C93_in_msg (H : Hasher) {sh : Shuffle} (hsh : Fair sh) {m : Msg MsgInfo (CSlice Cell)} {l : Layout}
    (hm : m.Ok (Boc.emptyContext H) fullKind (sliceOk (Boc.emptyContext H)) l) (hf : (m.enc fullKind sliceEnc l).Fits)
    (hw : (Tlb.cellOf (m.enc fullKind sliceEnc l)).WF H) (hi : okInfo H m.info) (hs : ∀ i, m.init = some i → okInit H i)
    (hbody : Carried H (Tlb.cellOf m.body.contents)) :
    ∃ x, inMsgSer H sh (Tlb.cellOf (m.enc fullKind sliceEnc l)) = some x ∧ inMsgDe H sh x = some (Tlb.cellOf (m.enc fullKind sliceEnc l)) :=
  inMsg_back H hsh hm hf hw hi hs hbody

/-- An owned message whose body is a whole exotic cell can be stored (in a reference), but not written in a readable format. -/
theorem C93_exotic_body_refused : ∃ m : Msg MsgInfo (SliceRange × Cell), m.layout = some ⟨false, true⟩ ∧ m.body.2.exotic = true ∧ m.body.2.WF toyHasher ∧
    ((m.store (Boc.emptyContext toyHasher) fullKind (partsBody (Boc.emptyContext toyHasher) (Boc.emptyContext toyHasher))).toSl).isOk = true ∧
    ∀ sh, messageSer toyHasher sh (msgInfo toyHasher sh) (partsBody (Boc.emptyContext toyHasher) (Boc.emptyContext toyHasher)) m = none := by
  refine ⟨⟨.extIn ⟨none, .std ⟨none, 0, List.replicate 32 0x11⟩, 0⟩, none,
    (fullRange (.mk true (natBits 8 2 ++ List.replicate 256 false) []), .mk true (natBits 8 2 ++ List.replicate 256 false) []), some ⟨false, true⟩⟩,
    rfl, rfl, ?_, ?_, ?_⟩
  · exact (Boc.C91_context toyHasher _).1 (by decide +kernel)
  · decide +kernel
  · intro sh
    have : bodyCell toyHasher (partsBody (Boc.emptyContext toyHasher) (Boc.emptyContext toyHasher))
        (fullRange (.mk true (natBits 8 2 ++ List.replicate 256 false) []), .mk true (natBits 8 2 ++ List.replicate 256 false) []) = none := by
      have h : (bodyCell toyHasher (partsBody (Boc.emptyContext toyHasher) (Boc.emptyContext toyHasher))
        (fullRange (.mk true (natBits 8 2 ++ List.replicate 256 false) []), .mk true (natBits 8 2 ++ List.replicate 256 false) [])).isNone = true := by decide +kernel
      exact Option.isNone_iff_eq_none.1 h
    unfold messageSer
    dsimp only
    rw [this]

/-! ### Validators -/

/-- **C93, validator sets.** A set whose weights are added up comes back in both kinds of formats. -/
theorem C93_vset (r : Bool) : Back vset r (fun s => s.InRange ∧ 0 < s.main ∧ s.list ≠ [] ∧ s.list = Vset.weighted 0 s.list ∧ s.totalWeight = Vset.weightOf s.list) := by
  rintro s ⟨h1, h2, h3, h4, h5⟩
  have hb : okFields { s with list := s.list.map bare } :=
    ⟨h1.1, h1.2.1, h2, h1.2.2.1, h1.2.2.2.1, fun v hv => by
      obtain ⟨w, hw, rfl⟩ := List.mem_map.1 hv
      exact ⟨h1.2.2.2.2 w hw, rfl⟩⟩
  obtain ⟨x, g1, g2⟩ := back_vsetFields r _ hb
  refine ⟨x, ?_, ?_⟩
  · rw [← vset_ser_bare]; exact g1
  · rw [vset_de g2]
    have e1 : Vset.weightOf (s.list.map bare) = s.totalWeight := by rw [weightOf_bare, h5]
    have e2 : Vset.weighted 0 (s.list.map bare) = s.list := by rw [weighted_bare, ← h4]
    dsimp only
    rw [e1, e2, if_pos ⟨fun g => h3 (List.map_eq_nil_iff.1 g), h1.2.2.2.1, .inr rfl⟩]

/-- **C93, reading validator sets.** A set is read just if it is not empty, its weights add up to less than `2^64`, and the total is the
declared one, if one is declared (not `0`). What is read has the weights added up. -/
theorem C93_vset_read (r : Bool) (x : SV) (s : Vset.ValidatorSet) : vset.de r x = some s ↔
    ∃ p, (struct vsetFields).de r x = some p ∧ p.list ≠ [] ∧ Vset.weightOf p.list < 2 ^ 64 ∧ (p.totalWeight = 0 ∨ p.totalWeight = Vset.weightOf p.list) ∧
      s = { p with list := Vset.weighted 0 p.list, totalWeight := Vset.weightOf p.list } := by
  constructor
  · intro h
    cases hp : (struct vsetFields).de r x with
    | none => unfold vset at h; dsimp only at h; rw [hp] at h; cases h
    | some p =>
      rw [vset_de hp] at h
      split at h
      · rename_i g
        injection h with h
        exact ⟨p, rfl, g.1, g.2.1, g.2.2, h.symm⟩
      · cases h
  · rintro ⟨p, hp, h1, h2, h3, rfl⟩
    rw [vset_de hp, if_pos ⟨h1, h2, h3⟩]

/-- All sets that are read are of the kind that comes back. -/
theorem C93_vset_valid (r : Bool) :
    Only vset r (fun s => s.InRange ∧ 0 < s.main ∧ s.list ≠ [] ∧ s.list = Vset.weighted 0 s.list ∧ s.totalWeight = Vset.weightOf s.list) := by
  intro x s h
  obtain ⟨p, hp, h1, h2, h3, rfl⟩ := (C93_vset_read r x s).1 h
  have ho := only_vsetFields r x p hp
  refine ⟨⟨ho.1, ho.2.1, ho.2.2.2.1, h2, ?_⟩, ho.2.2.1, ?_, ?_, ?_⟩
  · exact weighted_inRange 0 p.list fun v hv => (ho.2.2.2.2.2 v hv).1
  · dsimp only
    cases hl : p.list with
    | nil => exact absurd hl h1
    | cons v l => exact fun g => by cases g
  · dsimp only
    rw [weighted_weighted]
  · exact (weighted_weightOf 0 p.list).symm

/-- The number of main validators is not checked: a set with one validator and 100 main ones is read, which no cell gives (C68). -/
theorem C93_main_unchecked : (match vset.de true (.map [(.str "utime_since".toList, .num 1), (.str "utime_until".toList, .num 2), (.str "main".toList, .num 100),
    (.str "list".toList, .seq [.map [(.str "public_key".toList, .str (List.replicate 64 '0')), (.str "weight".toList, .num 5)]])]) with
    | some s => decide (s.main = 100 ∧ s.list.length = 1 ∧ s.totalWeight = 5)
    | none => false) = true := by decide +kernel

/-! ### Concrete cases -/

/-- A cell without references. -/
def exLeaf : Cell := .mk false [true, false, true] []

theorem exLeaf_carried : Carried toyHasher exLeaf := by
  refine ⟨(Boc.C91_context toyHasher _).1 (by decide +kernel), ⟨[(exLeaf.info toyHasher).hash 3], by simp, ?_⟩, ?_⟩
  · intro x hx
    cases hx with
    | refl => exact List.mem_cons_self
    | child h _ => have h : _ ∈ ([] : List Cell) := h; cases h
  · rintro ⟨a, b, i, j, ha, hb, hne, _⟩
    have sub : ∀ x, Cell.Sub x exLeaf → x = exLeaf := by
      intro x hx
      cases hx with
      | refl => rfl
      | child h _ => have h : _ ∈ ([] : List Cell) := h; cases h
    rw [sub a ha, sub b hb] at hne
    have pre : ∀ l, exLeaf.pre toyHasher l = exLeaf.pre toyHasher 0 := by
      intro l
      induction l with
      | zero => rfl
      | succ l ih =>
        rw [← ih]
        show (if (0 : LevelMask).getLsbD l then reprBytes (LevelMask.fromLevel (l + 1)) false 3 (levelHash toyHasher 0 false [true, false, true] 0 [] l) [] []
          else levelPre toyHasher 0 false [true, false, true] 0 [] l) = levelPre toyHasher 0 false [true, false, true] 0 [] l
        rw [if_neg (by simp)]
    exact hne (by rw [pre i, pre j])

example : ∃ x, (cell toyHasher).ser true exLeaf = some x ∧ (cell toyHasher).de true x = some exLeaf := (C93_cells toyHasher true).1 _ exLeaf_carried

def exStd : StdAddr := ⟨none, -1, List.replicate 32 0x11⟩
theorem exStd_ok : exStd.Ok := ⟨trivial, ⟨by decide, by decide⟩, rfl⟩
example : ∃ x, stdAddr.ser true exStd = some x ∧ stdAddr.de true x = some exStd := (C93_scalars true).2.2.2.2.1 _ ⟨exStd_ok, rfl⟩
example : stdAddr.ser false exStd matches some (.seq [.num (-1), .bytes _]) := by decide +kernel

/-- A dictionary of two amounts. -/
def exOther : SV := .map [(.num 7, .str "5".toList), (.num 9, .str "1000000".toList), (.num 7, .str "6".toList)]
def exRun (sh : Shuffle) : Option (List (Nat × Nat)) :=
  ((dict toyHasher sh coins (nat (2 ^ 32 - 1)) v248).de true exOther).map fun d =>
    (coins.entries d).map fun e => match e with | .ok (k, v) => (k, v.val) | .error _ => (0, 0)
/-- The last amount of the currency 7 counts; the order of the hash map does not matter. -/
example : exRun (fun _ l => l) = some [(7, 6), (9, 1000000)] ∧ exRun (fun _ l => l.reverse) = some [(7, 6), (9, 1000000)] := by decide +kernel
/-- The empty dictionary of other currencies is in canonical form. -/
theorem exOther_none (H : Hasher) : OtherOf H none := ⟨fun _ => none, C57_empty _, fun x v _ h => by cases h⟩
theorem exLibs_none (H : Hasher) : LibsOf H none := ⟨fun _ => none, C57_empty _, fun x v _ h => by cases h⟩

/-- An owned message with a body and a state init. -/
def exMessage : Msg MsgInfo (SliceRange × Cell) :=
  ⟨.int ⟨⟨true, true, false⟩, .std exStd, .std exStd, ⟨500, none⟩, 0, 1, 17, 18⟩, some ⟨some 3, some ⟨true, false⟩, some exLeaf, none, none⟩,
   (fullRange exLeaf, exLeaf), some ⟨false, true⟩⟩
theorem exMessage_info (H : Hasher) : okInfo H exMessage.info :=
  ⟨⟨exStd, rfl, exStd_ok, rfl⟩, ⟨exStd, rfl, exStd_ok, rfl⟩, ⟨by show (500 : Nat) ≤ _; decide, exOther_none H⟩, by show (0 : Nat) ≤ _; decide,
   by show (1 : Nat) ≤ _; decide, by show (17 : Nat) < _; decide, by show (18 : Nat) < _; decide⟩
theorem exMessage_init : ∀ i, exMessage.init = some i → okInit toyHasher i := by
  intro i h
  injection h with h
  subst h
  exact ⟨fun d h => by injection h with h; subst h; decide, fun c h => by injection h with h; subst h; exact exLeaf_carried, fun c h => (by cases h),
    exLibs_none _⟩
example : ∃ x, messageSer toyHasher (fun _ l => l) (msgInfo toyHasher (fun _ l => l)) (partsBody (Boc.emptyContext toyHasher) (Boc.emptyContext toyHasher)) exMessage = some x ∧
    messageDe toyHasher (fun _ l => l) (msgInfo toyHasher (fun _ l => l)) x = some exMessage :=
  (C93_message toyHasher (sh := fun _ l => l) fun _ _ => List.Perm.refl _).2.2.2 _ (exMessage_info _) exMessage_init rfl rfl exLeaf_carried

/-- The same message as a slice, for the message of a transaction. -/
def exIn : Msg MsgInfo (CSlice Cell) := ⟨exMessage.info, exMessage.init, Sl.reader ⟨exLeaf.bits, exLeaf.refs⟩, none⟩
example : (exIn.enc fullKind sliceEnc ⟨false, true⟩).Fits := by decide +kernel
example : (Tlb.cellOf (exIn.enc fullKind sliceEnc ⟨false, true⟩)).WF toyHasher := (Boc.C91_context toyHasher _).1 (by decide +kernel)
example : (match inMsgSer toyHasher (fun _ l => l) (Tlb.cellOf (exIn.enc fullKind sliceEnc ⟨false, true⟩)) with
    | some x => match inMsgDe toyHasher (fun _ l => l) x with
      | some c => c.bits == (exIn.enc fullKind sliceEnc ⟨false, true⟩).1 && c.refs.length == 2
      | none => false
    | none => false) = true := by decide +kernel

/-- A set of two validators. -/
def exVset : Vset.ValidatorSet :=
  ⟨1, 2, 1, 12, [⟨List.replicate 32 0x11, 5, none, 0, 0⟩, ⟨List.replicate 32 0x22, 7, some (List.replicate 32 0x33), 4, 5⟩]⟩
theorem exVset_ok : exVset.InRange ∧ 0 < exVset.main ∧ exVset.list ≠ [] ∧ exVset.list = Vset.weighted 0 exVset.list ∧ exVset.totalWeight = Vset.weightOf exVset.list := by
  refine ⟨⟨by decide, by decide, by decide, by decide, ?_⟩, by decide, (by intro h; cases h), by decide +kernel, by decide +kernel⟩
  intro v hv
  have hv : v ∈ [_, _] := hv
  simp only [List.mem_cons, List.not_mem_nil, or_false] at hv
  rcases hv with rfl | rfl
  · exact ⟨rfl, by decide, (by intro a h; cases h), by decide⟩
  · exact ⟨rfl, by decide, (by intro a h; cases h; rfl), by decide⟩
example : ∃ x, vset.ser true exVset = some x ∧ vset.de true x = some exVset := C93_vset true _ exVset_ok

/-- Two workchains as a list of keys; a repeated one counts once. -/
example : (match (keys toyHasher true Key.u32 (nat (2 ^ 32 - 1))).de true (.seq [.num 9, .num 1, .num 9]) with
    | some d => (match keysOf ((keysType Key.u32).entries d) with | some l => l == [1, 9] | none => false)
    | none => false) = true := by decide +kernel

/-- A known parameter as a number, an unknown one as a cell. -/
def exForms (id : Nat) : Option (Form Cell) := if id = 7 then some (lazy toyHasher Tlb.u32 (nat (2 ^ 32 - 1))) else none
theorem exForms_back : ∀ id F, exForms id = some F → Back F true (fun c => c.WF toyHasher ∧ ∃ v, Tlb.u32.ok v ∧ v ≤ 2 ^ 32 - 1 ∧ (Tlb.u32.enc v).Fits ∧ c = Tlb.cellOf (Tlb.u32.enc v)) := by
  intro id F h
  unfold exForms at h
  split at h
  · injection h with h
    subst h
    exact back_lazy_text toyHasher Tlb.u32_sound (back_nat true _)
  · cases h
example : (match (config toyHasher exForms).de true (.map [(.num 7, .num 258)]) with
    | some d => (match Config.params.entries d with | [.ok (k, c)] => k == 7 && c.bits == natBits 32 258 | _ => false)
    | none => false) = true := by decide +kernel
/-- Two bits after the value are lost in a readable format. -/
example : (match (lazy toyHasher Tlb.u32 (nat (2 ^ 32 - 1))).ser true (.mk false (natBits 32 258 ++ [true, true]) []) with
    | some x => (match (lazy toyHasher Tlb.u32 (nat (2 ^ 32 - 1))).de true x with | some c => c.bits == natBits 32 258 | none => false)
    | none => false) = true := by decide +kernel

end Form
end Verif
