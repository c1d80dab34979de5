import Verif.DictKeys
import Verif.DictFindProps
import Verif.DictIterProps
import Verif.DictBuildProps
/-
Typed dictionaries `Dict<K, V>` (`dict/typed.rs`): the key is stored into a data builder, the raw operation runs, keys
and values are loaded back. A raw value is a slice of a leaf; reading one is modelled on a slice of its own with the
same contents. The value of an insertion is stored on its own first (in the code: behind the label of the new leaf).
-/
set_option linter.unusedVariables false
set_option linter.unusedSimpArgs false
namespace Verif

/-- The key type and the `Store` and `Load` of the value type. -/
structure DictType (κ β : Type) where
  key : KeyType κ
  store : β → Wr Cell Unit
  load : Rd Cell β

/-- The data builder that holds these bits (a raw key). -/
def dataOf (k : Bits) : DataBuilder := ⟨packBytes k ++ List.replicate (128 - (k.length + 7) / 8) 0, k.length⟩

/-- A slice with these contents. -/
def Sl.reader (s : Sl) : CSlice Cell := ⟨packBytes s.bits, s.refs, ⟨0, s.bits.length, 0, s.refs.length⟩⟩

namespace DictType
variable {κ β : Type} (T : DictType κ β)

/-- `key.store_into_data(&mut builder)` on a new builder. -/
def keyOf (k : κ) : Except Err Bits :=
  match T.key.store k .new with
  | (.ok _, b) => .ok b.bits
  | (.error e, _) => .error e

/-- `value.store_into(..)` -/
def valueOf (v : β) : Except Err Sl :=
  match T.store v .new with
  | (.ok _, b) => .ok ⟨b.inner.bits, b.refs⟩
  | (.error e, _) => .error e

/-- `V::load_from` on a raw value; what follows the value is ignored. -/
def parse (s : Sl) : Except Err β := (T.load s.reader).1

/-- `K::load_from_data` on a raw key. -/
def parseKey (k : Bits) : Except Err κ :=
  match T.key.load (dataOf k).data with
  | some x => .ok x
  | none => .error .cellUnderflow

/-- `dict/typed.rs:182-203` `contains_key`. -/
def contains (d : Option Cell) (k : κ) : Except Err Bool := do
  let key ← T.keyOf k
  let r ← dictGet d T.key.bits key
  .ok r.isSome

/-- The end of `get_impl`. -/
def parseOpt : Option Sl → Except Err (Option β)
  | none => .ok none
  | some s => (T.parse s).map some

/-- `dict/typed.rs:212-245` `get`. -/
def get (d : Option Cell) (k : κ) : Except Err (Option β) := do
  let key ← T.keyOf k
  let r ← dictGet d T.key.bits key
  T.parseOpt r

/-- `dict/typed.rs:940-957` `insert_impl`, called by `set`, `replace`, `add`. -/
def insert (acc : Cell → Bool) (d : Option Cell) (k : κ) (v : β) (mode : SetMode) : DictRes Bool :=
  match T.keyOf k with
  | .error e => (.error e, d)
  | .ok key => match T.valueOf v with
    | .error e => (.error e, d)
    | .ok s => dictInsert acc d key T.key.bits s mode

/-- `dict/typed.rs:804-827` `remove_raw_ext`. -/
def removeRaw (acc : Cell → Bool) (d : Option Cell) (k : κ) : DictRes (Option Sl) :=
  match T.keyOf k with
  | .error e => (.error e, d)
  | .ok key => dictRemoveOwned acc d key T.key.bits false

/-- `dict/typed.rs:305-317` `remove`: the value is loaded after it was removed. -/
def remove (acc : Cell → Bool) (d : Option Cell) (k : κ) : DictRes (Option β) :=
  match T.removeRaw acc d k with
  | (.error e, d') => (.error e, d')
  | (.ok r, d') => (T.parseOpt r, d')

/-- A raw entry as a typed one: first the key, then the value. -/
def parseEntry (p : Bits × Sl) : Except Err (κ × β) := do
  let k ← T.parseKey p.1
  let v ← T.parse p.2
  .ok (k, v)

def parseEntryOpt : Option (Bits × Sl) → Except Err (Option (κ × β))
  | none => .ok none
  | some p => (T.parseEntry p).map some

/-- `dict/typed.rs:649-698` `find_ext`, called by `get_next`, `get_prev`, `get_or_next`, `get_or_prev`. -/
def find (d : Option Cell) (k : κ) (max inclusive signed : Bool) : Except Err (Option (κ × β)) := do
  let key ← T.keyOf k
  let r ← dictFind d T.key.bits key max inclusive signed
  T.parseEntryOpt r

/-- `dict/typed.rs:718-765` `get_min` and `get_max` over `get_bound_raw`. -/
def bound (d : Option Cell) (max signed : Bool) : Except Err (Option (κ × β)) := do
  let r ← dictFindBound d T.key.bits max signed
  T.parseEntryOpt r

/-- `dict/typed.rs:769-792` `remove_bound_raw_ext`; the key is loaded after the entry was removed. -/
def removeBound (acc : Cell → Bool) (d : Option Cell) (max signed : Bool) : DictRes (Option (κ × Sl)) :=
  match dictRemoveBound acc d T.key.bits max signed with
  | (.error e, d') => (.error e, d')
  | (.ok none, d') => (.ok none, d')
  | (.ok (some (k, s)), d') => ((T.parseKey k).map (fun k => some (k, s)), d')

/-- `dict/typed.rs:1072-1087` `Iter::next`; `finish` makes the raw iterator a broken one. -/
def next (it : RawIter) : Option (Except Err (κ × β)) × RawIter :=
  match it.next with
  | (none, it) => (none, it)
  | (some (.error e), it) => (some (.error e), it)
  | (some (.ok p), it) => match T.parseEntry p with
    | .ok kv => (some (.ok kv), it)
    | .error e => (some (.error e), { it with status := .broken })

/-- `for entry in dict.iter()`: all that the iterator yields. There are at most as many entries as keys. -/
def entries (d : Option Cell) : List (Except Err (κ × β)) :=
  runIter T.next (2 ^ T.key.bits + 1) (RawIter.new d T.key.bits false false)

/-- Keys and values of a list of entries, in the form that the raw operations take. -/
def rawEntries : List (κ × β) → Except Err (List (Bits × Sl))
  | [] => .ok []
  | (k, v) :: es => do
    let key ← T.keyOf k
    let s ← T.valueOf v
    let rest ← rawEntries es
    .ok ((key, s) :: rest)

/-- `dict/typed.rs:428-463` `try_from_btree` and `try_from_sorted_slice`, for key types whose order is the order of
their bit strings. -/
def build (acc : Cell → Bool) (es : List (κ × β)) : Except Err (Option Cell) := do
  let l ← T.rawEntries es
  buildDict none acc T.key.bits lexBits l

end DictType

/-! ### Specification -/

/-- A raw value holds `v`: it begins with an encoding of `v`. -/
def Holds {β : Type} (R : β → Enc Cell → Prop) (v : β) (s : Sl) : Prop :=
  s.bits.length ≤ 1023 ∧ s.refs.length ≤ 4 ∧ ∃ e rest : Enc Cell, R v e ∧ (s.bits, s.refs) = e ++ rest

/-- A raw value is exactly the canonical encoding of `v`. -/
def IsExactly {β : Type} (ok : β → Prop) (enc : β → Enc Cell) (v : β) (s : Sl) : Prop := ok v ∧ (enc v).Fits ∧ (s.bits, s.refs) = enc v

/-- A typed entry against a raw one. -/
def EntryIs {β : Type} (H : β → Sl → Prop) : Option β → Option Sl → Prop
  | none, none => True
  | some v, some s => H v s
  | _, _ => False

/-- A map from `bits`-bit keys to slices is the typed map `tm`: every key in it is the form of a key, and every key has
the value that the slice holds. -/
def MapIs {κ β : Type} (bits : Nat) (okK : κ → Prop) (encK : κ → Bits) (H : β → Sl → Prop) (m : DMap) (tm : κ → Option β) : Prop :=
  (∀ k s, k.length = bits → m k = some s → ∃ x, okK x ∧ encK x = k) ∧ ∀ x, okK x → EntryIs H (tm x) (m (encK x))

/-- Typed operations. -/
inductive TOp (κ β : Type)
  | get (k : κ)
  | contains (k : κ)
  | insert (mode : SetMode) (k : κ) (v : β)
  | remove (k : κ)

inductive TOut (β : Type)
  | value (v : Option β)
  | flag (b : Bool)
  deriving DecidableEq

/-- When an insertion writes: `set` always, `replace` only over an old value, `add` only a new one. -/
def SetMode.applies (mode : SetMode) (present : Bool) : Bool :=
  match mode with
  | .set => true
  | .replace => present
  | .add => !present

/-- Their specification on a map. -/
def TOp.spec {κ β : Type} [DecidableEq κ] (tm : κ → Option β) : TOp κ β → TOut β × (κ → Option β)
  | .get k => (.value (tm k), tm)
  | .contains k => (.flag (tm k).isSome, tm)
  | .insert mode k v =>
    (.flag (mode.applies (tm k).isSome), if mode.applies (tm k).isSome then fun k' => if k' = k then some v else tm k' else tm)
  | .remove k => (.value (tm k), fun k' => if k' = k then none else tm k')

/-- The operations of the code. -/
def TOp.run {κ β : Type} (T : DictType κ β) (acc : Cell → Bool) (d : Option Cell) : TOp κ β → DictRes (TOut β)
  | .get k => ((T.get d k).map .value, d)
  | .contains k => ((T.contains d k).map .flag, d)
  | .insert mode k v => let r := T.insert acc d k v mode; (r.1.map .flag, r.2)
  | .remove k => let r := T.remove acc d k; (r.1.map .value, r.2)

def TOp.Ok {κ β : Type} (okK : κ → Prop) (okV : β → Prop) : TOp κ β → Prop
  | .get k | .contains k | .remove k => okK k
  | .insert _ k v => okK k ∧ okV v

def TOp.writes {κ β : Type} : TOp κ β → Prop
  | .insert .. | .remove _ => True
  | _ => False

/-! ### Lemmas -/

theorem dataOf_spec {k : Bits} (h : k.length ≤ 1023) : (dataOf k).WF ∧ (dataOf k).bits = k := by
  have hp := packBytes_packs k
  have hlen : (packBytes k).length = (k.length + 7) / 8 := hp.1
  have hb : bytesToBits (dataOf k).data = k ++ List.replicate (1024 - k.length) false := by
    unfold dataOf
    dsimp only
    rw [bytesToBits_append, packBytes_bits]
    unfold LoadOp.padToBytes
    have hz : ∀ n, bytesToBits (List.replicate n (0 : Byte)) = List.replicate (8 * n) false := by
      intro n
      induction n with
      | zero => rfl
      | succ n ih =>
        rw [List.replicate_succ, bytesToBits_cons, ih]
        rw [show 8 * (n + 1) = 8 + 8 * n by omega, ← List.replicate_append_replicate]
        rfl
    rw [hz, List.append_assoc, List.replicate_append_replicate]
    congr 2
    omega
  have wf : (dataOf k).WF := by
    refine ⟨?_, h, ?_⟩
    · simp [dataOf, hlen]; omega
    · intro i hi
      rw [← bytesToBits_getD, hb, List.getD_eq_getElem?_getD, List.getElem?_append_right (by exact hi), List.getElem?_replicate]
      split <;> rfl
  refine ⟨wf, ?_⟩
  rw [Key.bits_eq wf, hb]
  show (k ++ _).take k.length = k
  simp

theorem Sl.reader_spec {s : Sl} (hb : s.bits.length ≤ 1023) (hr : s.refs.length ≤ 4) : s.reader.WF ∧ s.reader.contents = (s.bits, s.refs) := by
  have hp := packBytes_packs s.bits
  have hlen : (packBytes s.bits).length = (s.bits.length + 7) / 8 := hp.1
  refine ⟨⟨Nat.zero_le _, ?_, ?_, Nat.zero_le _, Nat.le_refl _, hr⟩, ?_⟩
  · show s.bits.length ≤ 8 * (packBytes s.bits).length
    omega
  · show (packBytes s.bits).length ≤ 128
    omega
  · unfold CSlice.contents
    refine Prod.ext ?_ ?_
    · show s.reader.bits = s.bits
      have ht := Packs.take hp
      have : s.reader.bits = (bytesToBits (packBytes s.bits)).take s.bits.length := by
        unfold CSlice.bits bytesToBits
        rw [← List.map_take, List.take_range]
        show (List.range (s.bits.length - 0)).map (fun i => bitAt (packBytes s.bits) (0 + i)) = _
        rw [Nat.min_eq_left (by omega)]
        simp
      rw [this, ht]
    · show (s.refs.drop 0).take (s.refs.length - 0) = s.refs
      simp

/-- What the typed operations need: `H` says which raw values hold a value. -/
structure Typed {κ β : Type} (T : DictType κ β) (okK : κ → Prop) (encK : κ → Bits) (okV : β → Prop) (H : β → Sl → Prop) : Prop where
  key : KeyCodes T.key okK encK
  bits : T.key.bits ≤ 1023
  value : ∀ v, okV v → ∃ s, T.valueOf v = .ok s ∧ H v s
  parse : ∀ v s, H v s → T.parse s = .ok v

section
variable {κ β : Type} {T : DictType κ β} {okK : κ → Prop} {encK : κ → Bits} {okV : β → Prop} {R : β → Enc Cell → Prop} {enc : β → Enc Cell}

theorem parse_holds (hV : Codes okV T.store T.load R enc) {v : β} {s : Sl} (h : Holds R v s) : T.parse s = .ok v := by
  obtain ⟨h1, h2, e, rest, hR, hc⟩ := h
  obtain ⟨w, c⟩ := Sl.reader_spec h1 h2
  obtain ⟨s', e1, _⟩ := hV.reads v e hR s.reader rest w (c.trans hc)
  unfold DictType.parse
  rw [e1]

theorem valueOf_ok (hV : Codes okV T.store T.load R enc) {v : β} (h : okV v) (hf : (enc v).Fits) :
    T.valueOf v = .ok ⟨(enc v).1, (enc v).2⟩ := by
  have hnew : (CellB.new : CellB Cell).contents = Enc.nil := rfl
  obtain ⟨b', e1, _, c, _⟩ := (hV.writes v h CellB.new CellB.wf_new).1 (by rw [hnew]; exact hf)
  unfold DictType.valueOf
  rw [e1]
  rw [hnew, Enc.nil_append] at c
  rw [← c]
  rfl

theorem holds_exactly (hV : Codes okV T.store T.load R enc) {v : β} {s : Sl} (h : IsExactly okV enc v s) : Holds R v s := by
  obtain ⟨h1, h2, h3⟩ := h
  have e1 : s.bits = (enc v).1 := congrArg Prod.fst h3
  have e2 : s.refs = (enc v).2 := congrArg Prod.snd h3
  exact ⟨by rw [e1]; exact h2.1, by rw [e2]; exact h2.2, enc v, Enc.nil, hV.canon v h1, by rw [Enc.append_nil, h3]⟩

theorem typed_holds (hK : KeyCodes T.key okK encK) (hb : T.key.bits ≤ 1023) (hV : Codes okV T.store T.load R enc) (hf : ∀ v, okV v → (enc v).Fits) :
    Typed T okK encK okV (Holds R) :=
  ⟨hK, hb, fun v hv => ⟨_, valueOf_ok hV hv (hf v hv), holds_exactly hV ⟨hv, hf v hv, rfl⟩⟩, fun v s h => parse_holds hV h⟩

theorem typed_exactly (hK : KeyCodes T.key okK encK) (hb : T.key.bits ≤ 1023) (hV : Codes okV T.store T.load R enc) (hf : ∀ v, okV v → (enc v).Fits) :
    Typed T okK encK okV (IsExactly okV enc) :=
  ⟨hK, hb, fun v hv => ⟨_, valueOf_ok hV hv (hf v hv), hv, hf v hv, rfl⟩, fun v s h => parse_holds hV (holds_exactly hV h)⟩

variable {H : β → Sl → Prop}

theorem Typed.keyOf (h : Typed T okK encK okV H) {x : κ} (hx : okK x) : T.keyOf x = .ok (encK x) ∧ (encK x).length = T.key.bits := by
  obtain ⟨b, h1, h2, _⟩ := (C56_faithful h.key h.bits).2 x hx
  refine ⟨?_, h.key.length x hx⟩
  unfold DictType.keyOf
  rw [h1, ← h2]

theorem Typed.keyInj (h : Typed T okK encK okV H) {x y : κ} (hx : okK x) (hy : okK y) (e : encK x = encK y) : x = y :=
  (C56_faithful h.key h.bits).1 x y hx hy e

theorem Typed.parseKey (h : Typed T okK encK okV H) {x : κ} (hx : okK x) : T.parseKey (encK x) = .ok x := by
  have hl := h.key.length x hx
  obtain ⟨w, b⟩ := dataOf_spec (k := encK x) (by rw [hl]; exact h.bits)
  have := (h.key.load _ w (by rw [b]; exact hl) x).2 ⟨hx, b⟩
  unfold DictType.parseKey
  rw [this]

theorem Typed.parseOpt (h : Typed T okK encK okV H) {o : Option β} {r : Option Sl} (he : EntryIs H o r) : T.parseOpt r = .ok o := by
  cases r with
  | none => cases o with
    | none => rfl
    | some v => exact he.elim
  | some s => cases o with
    | none => exact he.elim
    | some v =>
      show (T.parse s).map some = _
      rw [h.parse v s he]
      rfl

theorem entryIs_some {o : Option β} {s : Sl} (h : EntryIs H o (some s)) : ∃ v, o = some v ∧ H v s := by
  cases o with
  | none => exact h.elim
  | some v => exact ⟨v, rfl, h⟩

theorem entryIs_isSome {o : Option β} {r : Option Sl} (h : EntryIs H o r) : r.isSome = o.isSome := by
  cases r <;> cases o <;> first | rfl | exact h.elim

/-- Putting an entry on both sides. -/
theorem MapIs.put [DecidableEq κ] (h : Typed T okK encK okV H) {m : DMap} {tm : κ → Option β} (hm : MapIs T.key.bits okK encK H m tm)
    {x : κ} (hx : okK x) {o : Option β} {r : Option Sl} (he : EntryIs H o r) :
    MapIs T.key.bits okK encK H (m.put (encK x) r) (fun k => if k = x then o else tm k) := by
  refine ⟨fun k s hk hs => ?_, fun y hy => ?_⟩
  · unfold DMap.put at hs
    by_cases e : k = encK x
    · exact ⟨x, hx, e.symm⟩
    · rw [if_neg e] at hs
      exact hm.1 k s hk hs
  · unfold DMap.put
    show EntryIs H (if y = x then o else tm y) (if encK y = encK x then r else m (encK y))
    by_cases e : y = x
    · subst e
      rw [if_pos rfl, if_pos rfl]
      exact he
    · rw [if_neg e, if_neg (fun e' => e (h.keyInj hy hx e'))]
      exact hm.2 y hy

end

end Verif
