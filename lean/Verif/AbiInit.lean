import Verif.AbiContractLemmas
/-!
# Initial data of contracts

The initial data of a contract is a dictionary from 64-bit keys to packed values: the fields that the description lists, and the public key under the key zero. Storage fields
are a packed tuple.

Simplifications: the hash map of fields is the list of its items in the order of iteration, which the code does not determine; errors that exist only in the ABI are
`invalidData`; a public key is its bytes.
-/
set_option linter.unusedVariables false
namespace Verif
namespace Abi

/-- The elements of a fixed array of equal values. -/
def Elems.same (v : Val) : Nat → Elems
  | 0 => .nil
  | n + 1 => .cons v (Elems.same v n)

mutual
/-- `abi/value/mod.rs:406-436` `make_default_value` (`IntAddr::default()` is the zero address in workchain 0, `models/message/address.rs`). -/
def Ty.default : Ty → Val
  | .uint n => .uint n 0
  | .int n => .int n 0
  | .varuint n => .varuint n 0
  | .varint n => .varint n 0
  | .bool => .bool false
  | .cell => .cell (.mk false [] [])
  | .address => .address (.std ⟨none, 0, List.replicate 32 0⟩)
  | .bytes => .bytes []
  | .fixedBytes n => .fixedBytes (List.replicate n 0)
  | .string => .string []
  | .token => .token 0
  | .tuple ts => .tuple ts.defaults
  | .array t => .array t .nil
  | .fixedArray t n => .fixedArray t (Elems.same t.default n)
  | .map k t => .map k t .nil
  | .optional t => .absent t
  | .ref t => .ref t.default
def Tys.defaults : Tys → Items
  | .nil => .nil
  | .cons n t r => .cons n t.default r.defaults
end

/-- An item of `init_data` (`abi/contract.rs:41`). -/
structure InitItem where
  name : String
  key : Nat
  ty : Ty

/-- `make_builder` (`abi/value/ser.rs:70-76`) and `as_full_slice`. -/
def leafOf (acc : Cell → Bool) (ver : Ver) (v : Val) : Except Err Sl := child acc (v.size ver) (write acc ver v) >>= fun b => .ok ⟨b.inner.bits, b.refs⟩

/-- One value under its key (`abi/contract.rs:86-92`, 144-150, 157-165). -/
def setItem (acc : Cell → Bool) (ver : Ver) (i : InitItem) (v : Val) (d : Option Cell) : Except Err (Option Cell) :=
  leafOf acc ver v >>= fun sl => setLeaf acc d (natBits 64 i.key) 64 sl

/-- The item of a value: it must be listed and be of the type (`abi/contract.rs:79-83`, 137-141). -/
def itemFor (l : List InitItem) (tok : String × Val) : Except Err InitItem :=
  match l.find? (fun i => i.name == tok.1) with
  | none => .error .invalidData
  | some i => if hasType tok.2 i.ty then .ok i else .error .invalidData

/-- The public key under the key zero (`abi/contract.rs:100-107`, 166-172). -/
def setPubkey (acc : Cell → Bool) (key : List Byte) (d : Option Cell) : Except Err (Option Cell) := setLeaf acc d (natBits 64 0) 64 ⟨rawBits key 256, []⟩

/-- The dictionary in its cell (`CellBuilder::build_from_ext`). -/
def dictCell (acc : Cell → Bool) (d : Option Cell) : Except Err Cell := (Tlb.dict.store d).toSl >>= buildSl acc

/-- The values that are given (`abi/contract.rs:135-153`): each item can be used once. -/
def encodeTokens (acc : Cell → Bool) (ver : Ver) : List (String × Val) → List InitItem → Option Cell → Except Err (List InitItem × Option Cell)
  | [], l, d => .ok (l, d)
  | tok :: r, l, d => itemFor l tok >>= fun i => setItem acc ver i tok.2 d >>= fun d => encodeTokens acc ver r (l.filter fun i => i.name != tok.1) d

/-- The defaults for the remaining items (`abi/contract.rs:156-168`). -/
def encodeDefaults (acc : Cell → Bool) (ver : Ver) : List InitItem → Option Cell → Except Err (Option Cell)
  | [], d => .ok d
  | i :: l, d => setItem acc ver i i.ty.default d >>= fun d => encodeDefaults acc ver l d

/-- `abi/contract.rs:117-176` `encode_init_data` -/
def encodeInit (acc : Cell → Bool) (ver : Ver) (l : List InitItem) (key : List Byte) (tokens : List (String × Val)) : Except Err Cell :=
  encodeTokens acc ver tokens l none >>= fun x => encodeDefaults acc ver x.1 x.2 >>= fun d => setPubkey acc key d >>= dictCell acc

/-- The loop of `update_init_data` (`abi/contract.rs:78-95`). -/
def updateTokens (acc : Cell → Bool) (ver : Ver) (l : List InitItem) : List (String × Val) → Option Cell → Except Err (Option Cell)
  | [], d => .ok d
  | tok :: r, d => itemFor l tok >>= fun i => setItem acc ver i tok.2 d >>= fun d => updateTokens acc ver l r d

/-- The public key, if there is one. -/
def updateKey (acc : Cell → Bool) (key : Option (List Byte)) (d : Option Cell) : Except Err (Option Cell) :=
  match key with
  | none => .ok d
  | some k => setPubkey acc k d

/-- `abi/contract.rs:64-110` `update_init_data` -/
def updateInit (acc : Cell → Bool) (ver : Ver) (l : List InitItem) (key : Option (List Byte)) (tokens : List (String × Val)) (data : Cell) : Except Err Cell :=
  Tlb.parseAs Tlb.dict.load data >>= fun d =>
    if key.isNone && tokens.isEmpty then .ok data
    else updateTokens acc ver l tokens d >>= fun d => updateKey acc key d >>= dictCell acc

/-- One field of `decode_init_data` (`abi/contract.rs:184-189`). -/
def decodeItem (ver : Ver) (d : Option Cell) (i : InitItem) : Except Err Val :=
  dictGet d 64 (natBits 64 i.key) >>= fun r => match r with
    | none => .error .invalidData
    | some sl => whole false (load ver false i.ty true) sl.reader

/-- The loop of `decode_init_data`. -/
def decodeItems (ver : Ver) (d : Option Cell) : List InitItem → Except Err (List (String × Val))
  | [] => .ok []
  | i :: l => decodeItem ver d i >>= fun v => decodeItems ver d l >>= fun r => .ok ((i.name, v) :: r)

/-- `abi/contract.rs:179-192` `decode_init_data` -/
def decodeInit (ver : Ver) (l : List InitItem) (data : Cell) : Except Err (List (String × Val)) :=
  Tlb.parseAs Tlb.dict.load data >>= fun d => decodeItems ver d l

/-! ### Storage fields -/

/-- `abi/contract.rs:195-198` `encode_fields`: `tuple_to_builder` reserves the sizes of all values and writes them. -/
def encodeFields (acc : Cell → Bool) (ver : Ver) (fields : Tys) (tokens : Items) : Except Err (CellB Cell) :=
  if haveTypes tokens fields then child acc ((Val.tuple tokens).size ver) (writeItems acc ver tokens) else .error .invalidData

/-- `abi/contract.rs:203-222` `decode_fields`, `decode_fields_ext` -/
def decodeFields (ver : Ver) (part : Bool) (fields : Tys) (s : CSlice Cell) : Except Err Items := whole part (loadItems ver part fields true) s

/-! ### Functions and events by id -/

/-- `abi/contract.rs:50-54` `find_function_by_id`; the list is the hash map of functions in the order of iteration. -/
def findFunction (l : List Func) (id : Nat) (input : Bool) : Option Func := l.find? fun f => input && f.inputId == id || !input && f.outputId == id

/-- `abi/contract.rs:57-59` `find_event_by_id` -/
def findEvent (l : List Event) (id : Nat) : Option Event := l.find? fun e => e.id == id

/-! ### Specification -/

/-- The value of a field: the one that is given for it, or the default. -/
def initValue (tokens : List (String × Val)) (i : InitItem) : Val :=
  match tokens.find? (fun t => t.1 == i.name) with
  | some t => t.2
  | none => i.ty.default

/-- Fields as a well-formed description has them: names and keys are unique, keys are `u64` and not zero, the key of the public key. -/
structure InitOk (l : List InitItem) : Prop where
  names : (l.map (·.name)).Nodup
  keys : (l.map (·.key)).Nodup
  range : ∀ i ∈ l, 0 < i.key ∧ i.key < 2 ^ 64

/-- The value that is given last for a field. -/
def lastValue (tokens : List (String × Val)) (i : InitItem) : Option Val := (tokens.reverse.find? fun t => t.1 == i.name).map (·.2)

/-- The data is a cell with the dictionary of a map. -/
def Holds64 (acc : Cell → Bool) (c : Cell) (m : DMap) : Prop := ∃ d, Tlb.parseAs Tlb.dict.load c = .ok d ∧ Represents acc 64 d m

/-- The map of the initial data: the public key under the key zero, for each item the packed value that was given or the default, nothing else. -/
structure InitMap (acc : Cell → Bool) (ver : Ver) (l : List InitItem) (key : List Byte) (tokens : List (String × Val)) (m : DMap) : Prop where
  pubkey : m (natBits 64 0) = some ⟨rawBits key 256, []⟩
  items : ∀ i ∈ l, ∃ sl, leafOf acc ver (initValue tokens i) = .ok sl ∧ m (natBits 64 i.key) = some sl
  only : ∀ k, k < 2 ^ 64 → k ≠ 0 → (∀ i ∈ l, i.key ≠ k) → m (natBits 64 k) = none

/-- What updating does to the map. -/
structure Updated (acc : Cell → Bool) (ver : Ver) (l : List InitItem) (key : Option (List Byte)) (tokens : List (String × Val)) (m m' : DMap) : Prop where
  pubkey : ∀ k, key = some k → m' (natBits 64 0) = some ⟨rawBits k 256, []⟩
  kept : key = none → m' (natBits 64 0) = m (natBits 64 0)
  items : ∀ i ∈ l, ∀ v, lastValue tokens i = some v → ∃ sl, leafOf acc ver v = .ok sl ∧ m' (natBits 64 i.key) = some sl
  others : ∀ i ∈ l, lastValue tokens i = none → m' (natBits 64 i.key) = m (natBits 64 i.key)
  only : ∀ k, k < 2 ^ 64 → k ≠ 0 → (∀ i ∈ l, i.key ≠ k) → m' (natBits 64 k) = m (natBits 64 k)

end Abi
end Verif
