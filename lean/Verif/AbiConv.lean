import Verif.AbiContract
import Verif.AbiTotal
import Verif.VsetLemmas
/-!
# Conversion between Rust values and ABI values

The traits `WithAbiType`, `WithPlainAbiType`, `IntoAbi`, `IntoPlainAbi`, `FromAbi` and `FromPlainAbi` (`abi/traits.rs`) and their derived implementations
for structs (`abi-proc/src`).

The Rust types that have these traits are the terms of `RTy`; the values of such a type are the elements of `RTy.El`. Simplifications: a `String` is its
bytes; a `BTreeMap` or `HashMap` is the list of its entries, in which insertion replaces or appends; `as_abi` and `into_abi` are one function, the code differs
only in what is cloned; `VarUint248` and `Lazy`, which have only a type, and `AbiValue` itself, which is converted by the identity, are left out; so are the
attributes `with`, `abi_type_with`, … of the derive macros, which name functions of the user. All errors except `IntOverflow` are `invalidData`.
-/
set_option linter.unusedVariables false
namespace Verif
namespace Abi

/-! ### The types -/

/-- The widths of the primitive integers. -/
inductive W
  | w8 | w16 | w32 | w64 | w128
  deriving DecidableEq

def W.bits : W → Nat
  | .w8 => 8 | .w16 => 16 | .w32 => 32 | .w64 => 64 | .w128 => 128

/-- The types with `WithPlainAbiType` (`abi/traits.rs:357-382`): `u8`, … `u128`; `i8`, … `i128`; `HashBytes`; `SplitDepth`; `Uint9`, `Uint12`, `Uint15`; `bool`;
`IntAddr`, `StdAddr`, `VarAddr`. -/
inductive RKey
  | uint (w : W) | int (w : W) | hash | split | uint9 | uint12 | uint15 | bool | intAddr | stdAddr | varAddr
  deriving DecidableEq

/-- The values of a type. `SplitDepth` is a number from 1 to 255, the small integers are 16-bit numbers. -/
@[reducible] def RKey.El : RKey → Type
  | .uint w => BitVec w.bits
  | .int w => BitVec w.bits
  | .hash => List Byte
  | .split => Nat
  | .uint9 => Nat
  | .uint12 => Nat
  | .uint15 => Nat
  | .bool => Bool
  | .intAddr => IntAddr
  | .stdAddr => StdAddr
  | .varAddr => VarAddr

instance (k : RKey) : DecidableEq k.El := by cases k <;> infer_instance

mutual
/-- The types with `WithAbiType` (`abi/traits.rs:193-340`). `boxed` stands for `Box`, `Arc` and `Rc`; `array` is `[T; N]`, `map` is `BTreeMap` and `HashMap`,
`struct` is a struct with derived implementations. -/
inductive RTy
  | plain (k : RKey)
  | varuint24 | varuint56 | tokens | cell | bytes | string
  | option (t : RTy)
  | vec (t : RTy)
  | array (t : RTy) (n : Nat)
  | map (k : RKey) (t : RTy)
  | tuple (ts : RTys)
  | struct (ts : RTys)
  | boxed (t : RTy)
/-- The fields of a tuple or a struct with their names. -/
inductive RTys
  | nil
  | cons (name : String) (t : RTy) (rest : RTys)
end

mutual
/-- The values of a type. -/
def RTy.El : RTy → Type
  | .plain k => k.El
  | .varuint24 => Nat
  | .varuint56 => Nat
  | .tokens => Nat
  | .cell => Cell
  | .bytes => List Byte
  | .string => List Byte
  | .option t => Option t.El
  | .vec t => List t.El
  | .array t _ => List t.El
  | .map k t => List (k.El × t.El)
  | .tuple ts => ts.El
  | .struct ts => ts.El
  | .boxed t => t.El
def RTys.El : RTys → Type
  | .nil => Unit
  | .cons _ t r => t.El × r.El
end

def RTys.length : RTys → Nat
  | .nil => 0
  | .cons _ _ r => r.length + 1

/-- `NamedAbiType::from_index`, `NamedAbiValue::from_index` (`abi/ty.rs:38-40`, `abi/value/mod.rs:48-53`): the fields of a tuple, from this index on. -/
def RTys.indexed : Nat → List RTy → RTys
  | _, [] => .nil
  | i, t :: r => .cons ("value" ++ toString i) t (RTys.indexed (i + 1) r)

/-- A tuple type such as `(T0, T1)`. -/
def RTy.ofTuple (l : List RTy) : RTy := .tuple (RTys.indexed 0 l)

/-! ### ABI types -/

/-- `abi/traits.rs:357-382` `plain_abi_type` -/
def RKey.plainType : RKey → PTy
  | .uint w => .uint w.bits
  | .int w => .int w.bits
  | .hash => .uint 256
  | .split => .uint 5
  | .uint9 => .uint 9
  | .uint12 => .uint 12
  | .uint15 => .uint 15
  | .bool => .bool
  | .intAddr => .address
  | .stdAddr => .address
  | .varAddr => .address

/-- `abi/traits.rs:193-224`: the `abi_type` of these types. -/
def RKey.type : RKey → Ty
  | .uint w => .uint w.bits
  | .int w => .int w.bits
  | .hash => .uint 256
  | .split => .uint 5
  | .uint9 => .uint 9
  | .uint12 => .uint 12
  | .uint15 => .uint 15
  | .bool => .bool
  | .intAddr => .address
  | .stdAddr => .address
  | .varAddr => .address

/-- `typeid::of::<T>() == typeid::of::<u8>()` -/
def RTy.isU8 : RTy → Bool
  | .plain (.uint .w8) => true
  | _ => false

mutual
/-- `abi/traits.rs:193-340` `abi_type`; `abi-proc/src/derive_with_abi_type.rs:20-84` -/
def RTy.type : RTy → Ty
  | .plain k => k.type
  | .varuint24 => .varuint 4
  | .varuint56 => .varuint 8
  | .tokens => .token
  | .cell => .cell
  | .bytes => .bytes
  | .string => .string
  | .option t => .optional t.type
  | .vec t => if t.isU8 then .bytes else .array t.type
  | .array t n => if t.isU8 then .fixedBytes n else .fixedArray t.type n
  | .map k t => .map k.plainType t.type
  | .tuple ts => .tuple ts.types
  | .struct ts => .tuple ts.types
  | .boxed t => t.type
def RTys.types : RTys → Tys
  | .nil => .nil
  | .cons name t r => .cons name t.type r.types
end

/-! ### Into ABI values -/

/-- `abi/traits.rs:416-497` `as_plain_abi`, `into_plain_abi` -/
def RKey.intoPlain : (k : RKey) → k.El → PVal
  | .uint w, v => .uint w.bits (BitVec.toNat v)
  | .int w, v => .int w.bits (BitVec.toInt v)
  | .hash, d => .uint 256 (Boc.beNat d)
  | .split, v => .uint 5 v
  | .uint9, v => .uint 9 v
  | .uint12, v => .uint 12 v
  | .uint15, v => .uint 15 v
  | .bool, b => .bool b
  | .intAddr, a => .address a
  | .stdAddr, a => .address (.std a)
  | .varAddr, a => .address (.var a)

/-- `abi/traits.rs:534-645`: `as_abi`, `into_abi` of these types. -/
def RKey.into : (k : RKey) → k.El → Val
  | .uint w, v => .uint w.bits (BitVec.toNat v)
  | .int w, v => .int w.bits (BitVec.toInt v)
  | .hash, d => .uint 256 (Boc.beNat d)
  | .split, v => .uint 5 v
  | .uint9, v => .uint 9 v
  | .uint12, v => .uint 12 v
  | .uint15, v => .uint 15 v
  | .bool, b => .bool b
  | .intAddr, a => .address a
  | .stdAddr, a => .address (.std a)
  | .varAddr, a => .address (.var a)

/-- The cast of a list of `T` to bytes, which happens only if `T` is `u8`. -/
def RTy.asBytes : (t : RTy) → List t.El → Option (List Byte)
  | .plain (.uint .w8), l => some l
  | _, _ => none

def Elems.ofList : List Val → Elems
  | [] => .nil
  | v :: r => .cons v (Elems.ofList r)

/-- `collect` into a `BTreeMap` -/
def Entries.collect (l : List (PVal × Val)) : Entries := l.foldl (fun m e => m.insert e.1 e.2) .nil

mutual
/-- `abi/traits.rs:534-847` `as_abi`, `into_abi`; `abi-proc/src/derive_into_abi.rs:12-123` -/
def RTy.into : (t : RTy) → t.El → Val
  | .plain k, v => k.into v
  | .varuint24, v => .varuint 4 v
  | .varuint56, v => .varuint 8 v
  | .tokens, v => .token v
  | .cell, c => .cell c
  | .bytes, d => .bytes d
  | .string, d => .string d
  | .option t, none => .absent t.type
  | .option t, some v => .present t.type (t.into v)
  | .vec t, l => match t.asBytes l with
    | some d => .bytes d
    | none => .array t.type (Elems.ofList (l.map t.into))
  | .array t _, l => match t.asBytes l with
    | some d => .fixedBytes d
    | none => .fixedArray t.type (Elems.ofList (l.map t.into))
  | .map k t, l => .map k.plainType t.type (Entries.collect (l.map fun e => (k.intoPlain e.1, t.into e.2)))
  | .tuple ts, v => .tuple (ts.into v)
  | .struct ts, v => .tuple (ts.into v)
  | .boxed t, v => t.into v
def RTys.into : (ts : RTys) → ts.El → Items
  | .nil, _ => .nil
  | .cons name t r, v => .cons name (t.into v.1) (r.into v.2)
end

/-! ### From ABI values -/

/-- `ToPrimitive::to_u8`, …, with the error of `abi/traits.rs:875-918`. -/
def toU (n v : Nat) : Except Err (BitVec n) := if v < 2 ^ n then .ok (BitVec.ofNat n v) else .error .intOverflow

/-- `ToPrimitive::to_i8`, … -/
def toI (n : Nat) (x : Int) : Except Err (BitVec n) := if -(2 : Int) ^ n ≤ 2 * x ∧ 2 * x < (2 : Int) ^ n then .ok (BitVec.ofInt n x) else .error .intOverflow

/-- The body of `HashBytes::from_abi` (`abi/traits.rs:985-997`): the last 32 bytes of the number. -/
def toHash (v : Nat) : List Byte :=
  let bytes := (Big.toBytesLe v).reverse
  if 32 < bytes.length then bytes.drop (bytes.length - 32) else List.replicate (32 - bytes.length) 0 ++ bytes

/-- `from_plain_abi` (`abi/traits.rs:891-901`, `936-943`, `1002-1020`, `1058-1109`). `SplitDepth`, `Uint9`, `Uint12` and `Uint15` have no such function: an error here. -/
def RKey.fromPlain : (k : RKey) → PVal → Except Err k.El
  | .uint w, .uint n v => if n = w.bits then toU w.bits v else .error .invalidData
  | .int w, .int n x => if n = w.bits then toI w.bits x else .error .invalidData
  | .hash, .uint n v => if n = 256 then .ok (toHash v) else .error .invalidData
  | .bool, .bool b => .ok b
  | .intAddr, .address a => .ok a
  | .stdAddr, .address (.std a) => .ok a
  | .varAddr, .address (.var a) => .ok a
  | _, _ => .error .invalidData

/-- `from_abi` of these types (`abi/traits.rs:878-889`, `927-934`, `982-1000`, `1049-1098`). -/
def RKey.from : (k : RKey) → Val → Except Err k.El
  | .uint w, .uint n v => if n = w.bits then toU w.bits v else .error .invalidData
  | .int w, .int n x => if n = w.bits then toI w.bits x else .error .invalidData
  | .hash, .uint n v => if n = 256 then .ok (toHash v) else .error .invalidData
  | .bool, .bool b => .ok b
  | .intAddr, .address a => .ok a
  | .stdAddr, .address (.std a) => .ok a
  | .varAddr, .address (.var a) => .ok a
  | _, _ => .error .invalidData

/-- `cast_vec` of bytes into `T`, if `T` is `u8`. -/
def RTy.ofBytes : (t : RTy) → List Byte → List t.El
  | .plain (.uint .w8), d => d
  | _, _ => []

/-- The loop of `Vec::from_abi` (`abi/traits.rs:1128-1131`). -/
def Elems.each {α : Type} (f : Val → Except Err α) : Elems → Except Err (List α)
  | .nil => .ok []
  | .cons v r => f v >>= fun x => r.each f >>= fun l => .ok (x :: l)

/-- `BTreeMap::insert`, `HashMap::insert` -/
def mapPut {κ α : Type} [DecidableEq κ] (k : κ) (v : α) : List (κ × α) → List (κ × α)
  | [] => [(k, v)]
  | e :: r => if e.1 = k then (k, v) :: r else e :: mapPut k v r

/-- The loop of `BTreeMap::from_abi` (`abi/traits.rs:1141-1143`). -/
def Entries.each {κ α : Type} [DecidableEq κ] (f : PVal → Except Err κ) (g : Val → Except Err α) : Entries → List (κ × α) → Except Err (List (κ × α))
  | .nil, m => .ok m
  | .cons k v r, m => f k >>= fun k => g v >>= fun v => r.each f g (mapPut k v m)

def Items.length : Items → Nat
  | .nil => 0
  | .cons _ _ r => r.length + 1

mutual
/-- `abi/traits.rs:875-1234` `from_abi`; `abi-proc/src/derive_from_abi.rs:12-110`. `[T; N]` has no such function: an error here. -/
def RTy.from : (t : RTy) → Val → Except Err t.El
  | .plain k, v => k.from v
  | .varuint24, .varuint n v => if n = 4 then (if v < 2 ^ 32 then .ok v else .error .intOverflow) else .error .invalidData
  | .varuint56, .varuint n v => if n = 8 then (if v < 2 ^ 64 then .ok v else .error .intOverflow) else .error .invalidData
  | .tokens, .varuint n v => if n = 16 then (if v < 2 ^ 128 then .ok v else .error .intOverflow) else .error .invalidData
  | .tokens, .token v => .ok v
  | .cell, .cell c => .ok c
  | .bytes, .bytes d => .ok d
  | .bytes, .fixedBytes d => .ok d
  | .string, .string d => .ok d
  | .option t, .absent _ => .ok none
  | .option t, .present _ v => t.from v >>= fun x => .ok (some x)
  | .vec t, .bytes d => if t.isU8 then .ok (t.ofBytes d) else .error .invalidData
  | .vec t, .fixedBytes d => if t.isU8 then .ok (t.ofBytes d) else .error .invalidData
  | .vec t, .array _ vs => if t.isU8 then .error .invalidData else vs.each t.from
  | .vec t, .fixedArray _ vs => if t.isU8 then .error .invalidData else vs.each t.from
  | .map k t, .map _ _ es => es.each k.fromPlain t.from []
  | .tuple ts, .tuple items => if items.length = ts.length then ts.from items else .error .invalidData
  | .struct ts, .tuple items => ts.from items
  | .boxed t, v => t.from v
  | _, _ => .error .invalidData
/-- The fields one after another; there may be items left. -/
def RTys.from : (ts : RTys) → Items → Except Err ts.El
  | .nil, _ => .ok ()
  | .cons _ t r, .cons _ v items => t.from v >>= fun x => r.from items >>= fun l => .ok (x, l)
  | .cons _ _ _, .nil => .error .invalidData
end

/-! ### The header of `PlainAbiType` and `PlainAbiValue` -/

/-- `From<PlainAbiType> for AbiType` (`abi/ty.rs`) -/
def PTy.full : PTy → Ty
  | .uint n => .uint n | .int n => .int n | .bool => .bool | .address => .address

/-- `From<PlainAbiValue> for AbiValue` (`abi/value/mod.rs:515-524`) -/
def PVal.full : PVal → Val
  | .uint n v => .uint n v | .int n x => .int n x | .bool b => .bool b | .address a => .address a

end Abi
end Verif
