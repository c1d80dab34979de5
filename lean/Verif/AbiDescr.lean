import Verif.AbiInit
import Verif.AbiText
import Verif.AbiUtf8
import Verif.Forms
/-
Descriptions of contracts (`abi/contract.rs:225-377`): how the functions, events and fields of a contract are made of the JSON text, how ids are
computed, and the builders of functions and events.
-/
set_option linter.unusedVariables false
set_option linter.unusedSimpArgs false
namespace Verif
namespace Abi

open Text

/-! ### Ids -/

/-- The bytes of a text (`str::as_bytes`). -/
def textBytes (s : List Char) : List Byte := s.flatMap fun c => encodeScalar c.toNat

/-- `abi/contract.rs:421-422`, 949-950: the first four bytes of the hash, the highest one first. `sha` stands for SHA-256. The pieces of the text are
passed to the hasher one by one (1302-1308), which is the hash of the whole text. -/
def hashId (sha : List Byte → List Byte) (s : List Char) : Nat := ((sha (textBytes s)).take 4).foldl (fun n b => n * 256 + b.toNat) 0

/-- `abi/contract.rs:404-423` `Function::compute_function_id` -/
def computeFunctionId (sha : List Byte → List Byte) (ver : Ver) (name : String) (headers : List Hdr) (inputs outputs : Tys) : Nat :=
  hashId sha (funcSignature ver name.toList headers inputs outputs)

/-- `abi/contract.rs:941-951` `Event::compute_event_id` -/
def computeEventId (sha : List Byte → List Byte) (ver : Ver) (name : String) (inputs : Tys) : Nat := hashId sha (eventSignature ver name.toList inputs)

/-- `abi/contract.rs:613-621` `Function::display_signature` -/
def Func.signature (f : Func) : List Char := funcSignature f.ver f.name.toList f.headers f.inputs f.outputs

/-- `abi/contract.rs:996-1002` `Event::display_signature` -/
def Event.signature (f : Event) : List Char := eventSignature f.ver f.name.toList f.inputs

/-! ### Builders -/

/-- `FunctionBuilder` (`abi/contract.rs:824-831`) -/
structure FuncBuilder where
  ver : Ver
  name : String
  headers : List Hdr
  inputs : Tys
  outputs : Tys
  id : Option Nat

/-- `abi/contract.rs:447-449` `Function::builder`, 835-844 `FunctionBuilder::new` -/
def FuncBuilder.new (ver : Ver) (name : String) : FuncBuilder := ⟨ver, name, [], .nil, .nil, none⟩
/-- `abi/contract.rs:874-877` -/
def FuncBuilder.withHeaders (b : FuncBuilder) (l : List Hdr) : FuncBuilder := { b with headers := l }
/-- `abi/contract.rs:880-887` -/
def FuncBuilder.withInputs (b : FuncBuilder) (l : Tys) : FuncBuilder := { b with inputs := l }
/-- `abi/contract.rs:900-907` -/
def FuncBuilder.withOutputs (b : FuncBuilder) (l : Tys) : FuncBuilder := { b with outputs := l }
/-- `abi/contract.rs:920-923` -/
def FuncBuilder.withId (b : FuncBuilder) (id : Nat) : FuncBuilder := { b with id := some id }

/-- `abi/ty.rs:38-40` `NamedAbiType::from_index` for a list of types that is counted from `i` on. -/
def indexed : Nat → List Ty → Tys
  | _, [] => .nil
  | i, t :: ts => .cons (String.ofList ("value".toList ++ dec i)) t (indexed (i + 1) ts)

/-- `abi/contract.rs:890-897` -/
def FuncBuilder.withUnnamedInputs (b : FuncBuilder) (l : List Ty) : FuncBuilder := { b with inputs := indexed 0 l }
/-- `abi/contract.rs:910-917` -/
def FuncBuilder.withUnnamedOutputs (b : FuncBuilder) (l : List Ty) : FuncBuilder := { b with outputs := indexed 0 l }

/-- `abi/contract.rs:847-871` `FunctionBuilder::build` -/
def FuncBuilder.build (sha : List Byte → List Byte) (b : FuncBuilder) : Func :=
  let ids := match b.id with
    | some id => (id, id)
    | none => let id := computeFunctionId sha b.ver b.name b.headers b.inputs b.outputs; (id &&& 0x7fffffff, id ||| 0x80000000)
  ⟨b.ver, b.headers, b.name, b.inputs, b.outputs, ids.1, ids.2⟩

/-- `EventBuilder` (`abi/contract.rs:1007-1012`) -/
structure EventBuilder where
  ver : Ver
  name : String
  inputs : Tys
  id : Option Nat

/-- `abi/contract.rs:956-958` `Event::builder`, 1016-1023 `EventBuilder::new` -/
def EventBuilder.new (ver : Ver) (name : String) : EventBuilder := ⟨ver, name, .nil, none⟩
/-- `abi/contract.rs:1044-1051` -/
def EventBuilder.withInputs (b : EventBuilder) (l : Tys) : EventBuilder := { b with inputs := l }
/-- `abi/contract.rs:1054-1061` -/
def EventBuilder.withUnnamedInputs (b : EventBuilder) (l : List Ty) : EventBuilder := { b with inputs := indexed 0 l }
/-- `abi/contract.rs:1064-1067` -/
def EventBuilder.withId (b : EventBuilder) (id : Nat) : EventBuilder := { b with id := some id }

/-- `abi/contract.rs:1026-1041` `EventBuilder::build` -/
def EventBuilder.build (sha : List Byte → List Byte) (b : EventBuilder) : Event :=
  let id := match b.id with
    | some id => id
    | none => computeEventId sha b.ver b.name b.inputs &&& 0x7fffffff
  ⟨b.ver, b.name, b.inputs, id⟩

/-- `NamedAbiTypeFlatten::next` (`abi/ty.rs:222-227`) for the variant `Tuple`, called `n` times: `Vec::pop` takes the last item. -/
def popAll : Nat → List (String × Ty) → List (String × Ty)
  | 0, _ => []
  | n + 1, l => match l.getLast? with
    | none => []
    | some x => x :: popAll n l.dropLast

/-- A list of named types. -/
def Tys.list : Tys → List (String × Ty)
  | .nil => []
  | .cons n t r => (n, t) :: r.list

def Tys.of : List (String × Ty) → Tys
  | [] => .nil
  | (n, t) :: l => .cons n t (Tys.of l)

/-- `abi/ty.rs:49-61` `NamedAbiType::flatten`, all that the iterator yields: the items of a tuple are reversed and then taken from the end. -/
def flatten (name : String) : Ty → List (String × Ty)
  | .tuple ts => popAll (ts.list.length + 1) ts.list.reverse
  | t => [(name, t)]

/-! ### Descriptions -/

/-- `SerdeFunction` (`abi/contract.rs:269-278`); absent lists are empty ones. -/
structure FuncJson where
  name : String
  inputs : Fields
  outputs : Fields
  id : Option (List Char)

/-- `SerdeEvent` (`abi/contract.rs:280-287`) -/
structure EventJson where
  name : String
  inputs : Fields
  id : Option (List Char)

/-- `InitData` (`abi/contract.rs:289-294`) -/
structure InitJson where
  key : Nat
  field : Field

/-- `SerdeContract` (`abi/contract.rs:251-267`); the texts of the headers are kept. -/
structure ContractJson where
  abiVersion : Option Nat
  version : Option (List Char)
  header : List (List Char)
  functions : List FuncJson
  events : List EventJson
  data : List InitJson
  fields : Fields

/-- `Contract` (`abi/contract.rs:26-46`); a hash map is the list of its entries. -/
structure Contract where
  ver : Ver
  headers : List Hdr
  functions : List (String × Func)
  events : List (String × Event)
  initData : List (String × InitItem)
  fields : Tys

/-- `abi/contract.rs:235-249`: the text of an id is `0x` and a hexadecimal number (`u32::from_str_radix`). -/
def readId (s : List Char) : Option Nat := (stripPrefix "0x".toList s).bind (parseUint 16 (2 ^ 32 - 1))

/-- An id that may be absent. -/
def readOptId : Option (List Char) → Option (Option Nat)
  | none => some none
  | some s => (readId s).map some

/-- All texts of a list. -/
def readAll {α β : Type} (f : α → Option β) : List α → Option (List β)
  | [] => some []
  | x :: l => (f x).bind fun y => (readAll f l).map fun r => y :: r

/-- `abi/contract.rs:297-303`: the version as a text comes first, then the number of the major version. -/
def readVersion (j : ContractJson) : Option Ver :=
  match j.version with
  | some s => Ver.fromText s
  | none => match j.abiVersion with
    | some major => some ⟨major, 0⟩
    | none => none

/-- `abi/contract.rs:310-335`: one function. -/
def readFunction (sha : List Byte → List Byte) (ver : Ver) (headers : List Hdr) (j : FuncJson) : Option (String × Func) :=
  (fromFields j.inputs).toOption.bind fun inputs => (fromFields j.outputs).toOption.bind fun outputs => (readOptId j.id).map fun id =>
  let ids := match id with
    | some id => (id, id)
    | none => let id := computeFunctionId sha ver j.name headers inputs outputs; (id &&& 0x7fffffff, id ||| 0x80000000)
  (j.name, ⟨ver, headers, j.name, inputs, outputs, ids.1, ids.2⟩)

/-- `abi/contract.rs:341-356`: one event. -/
def readEvent (sha : List Byte → List Byte) (ver : Ver) (j : EventJson) : Option (String × Event) :=
  (fromFields j.inputs).toOption.bind fun inputs => (readOptId j.id).map fun id =>
  let id := match id with
    | some id => id
    | none => computeEventId sha ver j.name inputs &&& 0x7fffffff
  (j.name, ⟨ver, j.name, inputs, id⟩)

/-- `abi/contract.rs:361-365`: one field of the initial data. -/
def readInit (j : InitJson) : Option (String × InitItem) := (fromField j.field).toOption.map fun x => (x.1, ⟨x.1, j.key, x.2⟩)

/-- `abi/contract.rs:225-377` `Deserialize for Contract`. A description that cannot be read is `none`: which of several errors is reported is not modelled.
The hash maps are collected from the lists: of equal names the last one stays. -/
def readContract (sha : List Byte → List Byte) (j : ContractJson) : Option Contract :=
  (readVersion j).bind fun ver => (readAll (fun s => (Hdr.fromText s).toOption) j.header).bind fun headers =>
  (readAll (readFunction sha ver headers) j.functions).bind fun functions => (readAll (readEvent sha ver) j.events).bind fun events =>
  (readAll readInit j.data).bind fun data => (fromFields j.fields).toOption.map fun fields =>
  ⟨ver, headers, Form.lastWins functions, Form.lastWins events, Form.lastWins data, fields⟩

/-! ### Specification -/

/-- The version that a description has: the text if there is one, otherwise the number. -/
inductive HasVersion (j : ContractJson) : Ver → Prop
  | text (s : List Char) (v : Ver) : j.version = some s → Ver.fromText s = some v → HasVersion j v
  | number (m : Nat) : j.version = none → j.abiVersion = some m → HasVersion j ⟨m, 0⟩

/-- What an id may be: the written one, or one computed from the signature. -/
def IdIs (text : Option (List Char)) (computed : Nat) (id : Nat) : Prop :=
  match text with
  | some s => readId s = some id
  | none => id = computed

/-- The function that an entry of the description declares: names and types as written; without a written id the lower 31 bits of the hash of the displayed
signature, with the highest bit clear in calls and set in answers. -/
structure DeclaresFunc (sha : List Byte → List Byte) (ver : Ver) (headers : List Hdr) (j : FuncJson) (f : Func) : Prop where
  ver : f.ver = ver
  headers : f.headers = headers
  name : f.name = j.name
  inputs : fromFields j.inputs = .ok f.inputs
  outputs : fromFields j.outputs = .ok f.outputs
  input : IdIs j.id (hashId sha f.signature % 2 ^ 31) f.inputId
  output : IdIs j.id (2 ^ 31 + hashId sha f.signature % 2 ^ 31) f.outputId

/-- The same for events. -/
structure DeclaresEvent (sha : List Byte → List Byte) (ver : Ver) (j : EventJson) (f : Event) : Prop where
  ver : f.ver = ver
  name : f.name = j.name
  inputs : fromFields j.inputs = .ok f.inputs
  id : IdIs j.id (hashId sha f.signature % 2 ^ 31) f.id

/-- The last entry of a list with a name. -/
def LastNamed {α : Type} (name : α → String) (l : List α) (n : String) (x : α) : Prop := ∃ a b, l = a ++ x :: b ∧ name x = n ∧ ∀ y ∈ b, name y ≠ n

/-- The contract that a description describes. -/
structure Describes (sha : List Byte → List Byte) (j : ContractJson) (c : Contract) : Prop where
  ver : HasVersion j c.ver
  headers : c.headers.map Hdr.text = j.header
  names : (c.functions.map (·.1)).Nodup ∧ (c.events.map (·.1)).Nodup ∧ (c.initData.map (·.1)).Nodup
  functions : ∀ n f, (n, f) ∈ c.functions ↔ ∃ x, LastNamed FuncJson.name j.functions n x ∧ DeclaresFunc sha c.ver c.headers x f
  events : ∀ n f, (n, f) ∈ c.events ↔ ∃ x, LastNamed EventJson.name j.events n x ∧ DeclaresEvent sha c.ver x f
  data : ∀ n i, (n, i) ∈ c.initData ↔ ∃ x, LastNamed (fun x => match x.field with | .plain m _ => m | .composite m _ _ => m) j.data n x ∧
    i.key = x.key ∧ i.name = n ∧ fromField x.field = .ok (n, i.ty)
  fields : fromFields j.fields = .ok c.fields

/-- What a description must meet to be accepted. -/
structure Readable (j : ContractJson) : Prop where
  ver : ∃ v, HasVersion j v
  headers : ∀ s ∈ j.header, s = "time".toList ∨ s = "expire".toList ∨ s = "pubkey".toList
  functions : ∀ f ∈ j.functions, (fromFields f.inputs).isOk = true ∧ (fromFields f.outputs).isOk = true ∧ ∀ s, f.id = some s → (readId s).isSome = true
  events : ∀ f ∈ j.events, (fromFields f.inputs).isOk = true ∧ ∀ s, f.id = some s → (readId s).isSome = true
  data : ∀ x ∈ j.data, (fromField x.field).isOk = true
  fields : (fromFields j.fields).isOk = true

end Abi
end Verif
