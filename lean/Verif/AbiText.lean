import Verif.AbiContract
import Verif.Text
/-!
# Texts of ABI types

The names of types: the full form that signatures are made of (`Display`), the short form with `tuple` that contract descriptions use together with `components`, and its
parser; signatures of functions and events; versions.

Simplifications: texts are lists of characters; the JSON around names (an object with `name`, `type` and optionally `components`) is the data type `Field`.
-/
set_option linter.unusedVariables false
namespace Verif
namespace Abi

open Text

/-! ### Pieces of the standard library -/

/-- `str::split_once` with a character. -/
def splitOnce (c : Char) : List Char → Option (List Char × List Char)
  | [] => none
  | x :: r => if x = c then some ([], r) else (splitOnce c r).map fun p => (x :: p.1, p.2)

/-- `str::rsplit_once` with a character. -/
def rsplitOnce (c : Char) (s : List Char) : Option (List Char × List Char) := (splitOnce c s.reverse).map fun p => (p.2.reverse, p.1.reverse)

/-- `str::strip_suffix` with a character. -/
def stripSuffix (c : Char) (s : List Char) : Option (List Char) := if s.getLast? = some c then some s.dropLast else none

/-- `str::strip_prefix` -/
def stripPrefix : List Char → List Char → Option (List Char)
  | [], s => some s
  | _ :: _, [] => none
  | a :: p, b :: s => if a = b then stripPrefix p s else none

/-- Decimal notation. -/
def dec (n : Nat) : List Char := Nat.toDigits 10 n

/-! ### Types -/

/-- `ParseAbiTypeError` and `ParseNamedAbiTypeError` (`abi/error.rs`) -/
inductive TyErr
  | invalidArrayType | invalidArrayLength | invalidBitLen | invalidByteLen | unterminated | valueTypeNotFound | unknownType | expectedComponents | unexpectedComponents
  deriving DecidableEq

/-- `abi/ty.rs:857-868` `Display for PlainAbiType` -/
def PTy.text : PTy → List Char
  | .uint n => "uint".toList ++ dec n
  | .int n => "int".toList ++ dec n
  | .bool => "bool".toList
  | .address => "address".toList

mutual
/-- `abi/ty.rs:641-679` `Display for AbiType` -/
def Ty.text : Ty → List Char
  | .uint n => "uint".toList ++ dec n
  | .int n => "int".toList ++ dec n
  | .varuint n => "varuint".toList ++ dec n
  | .varint n => "varint".toList ++ dec n
  | .bool => "bool".toList
  | .cell => "cell".toList
  | .address => "address".toList
  | .bytes => "bytes".toList
  | .fixedBytes n => "fixedbytes".toList ++ dec n
  | .string => "string".toList
  | .token => "gram".toList
  | .tuple items => '(' :: (joinSep ',' items.texts ++ [')'])
  | .array t => t.text ++ ['[', ']']
  | .fixedArray t n => t.text ++ '[' :: (dec n ++ [']'])
  | .map k t => "map(".toList ++ (k.text ++ ',' :: (t.text ++ [')']))
  | .optional t => "optional(".toList ++ (t.text ++ [')'])
  | .ref t => "ref(".toList ++ (t.text ++ [')'])
def Tys.texts : Tys → List (List Char)
  | .nil => []
  | .cons _ t r => t.text :: r.texts
end

/-- `abi/ty.rs:683-697` `DisplayAbiTypeSimple` -/
def Ty.simple : Ty → List Char
  | .tuple _ => "tuple".toList
  | .array t => t.simple ++ ['[', ']']
  | .fixedArray t n => t.simple ++ '[' :: (dec n ++ [']'])
  | .map k t => "map(".toList ++ (k.text ++ ',' :: (t.simple ++ [')']))
  | .optional t => "optional(".toList ++ (t.simple ++ [')'])
  | .ref t => "ref(".toList ++ (t.simple ++ [')'])
  | t => t.text

/-- `str::parse::<NonZeroU8>` -/
def parseNonZero (s : List Char) : Option Nat := (parseUint 10 255 s).bind fun n => if n = 0 then none else some n

def orErr {α : Type} (e : TyErr) : Option α → Except TyErr α
  | some a => .ok a
  | none => .error e

/-- `abi/ty.rs:833-855` `PlainAbiType::from_str` -/
def PTy.fromText (s : List Char) : Except TyErr PTy :=
  if s = "bool".toList then .ok .bool
  else if s = "address".toList then .ok .address
  else match stripPrefix "uint".toList s with
    | some s => orErr .invalidBitLen ((parseUint 10 65535 s).map PTy.uint)
    | none => match stripPrefix "int".toList s with
      | some s => orErr .invalidBitLen ((parseUint 10 65535 s).map PTy.int)
      | none => .error .unknownType

/-- The types that are single words (`abi/ty.rs:569-602`). -/
def wordType (s : List Char) : Option (Except TyErr Ty) :=
  if s = "bool".toList then some (.ok .bool)
  else if s = "cell".toList then some (.ok .cell)
  else if s = "address".toList then some (.ok .address)
  else if s = "bytes".toList then some (.ok .bytes)
  else if s = "string".toList then some (.ok .string)
  else if s = "gram".toList ∨ s = "token".toList then some (.ok .token)
  else if s = "tuple".toList then some (.ok (.tuple .nil))
  else match stripPrefix "uint".toList s with
  | some s => some (orErr .invalidBitLen ((parseUint 10 65535 s).map Ty.uint))
  | none => match stripPrefix "int".toList s with
  | some s => some (orErr .invalidBitLen ((parseUint 10 65535 s).map Ty.int))
  | none => match stripPrefix "varuint".toList s with
  | some s => some (orErr .invalidByteLen ((parseNonZero s).map Ty.varuint))
  | none => match stripPrefix "varint".toList s with
  | some s => some (orErr .invalidByteLen ((parseNonZero s).map Ty.varint))
  | none => match stripPrefix "fixedbytes".toList s with
  | some s => some (orErr .invalidByteLen ((parseUint 10 (2 ^ 64 - 1) s).map Ty.fixedBytes))
  | none => none

/-- `abi/ty.rs:548-628` `from_simple_str`; the first argument bounds the depth, which the length of the text does. -/
def fromSimple : Nat → List Char → Except TyErr Ty
  | 0, _ => .error .unknownType
  | fuel + 1, s =>
    match stripSuffix ']' s with
    | some a =>
      match rsplitOnce '[' a with
      | none => .error .invalidArrayType
      | some (ty, len) =>
        if len = [] then (fromSimple fuel ty).map Ty.array
        else match parseUint 10 (2 ^ 64 - 1) len with
          | none => .error .invalidArrayLength
          | some n => (fromSimple fuel ty).map fun t => .fixedArray t n
    | none =>
      match wordType s with
      | some r => r
      | none => match stripPrefix "map(".toList s with
        | some s => match stripSuffix ')' s with
          | none => .error .unterminated
          | some s => match splitOnce ',' s with
            | none => .error .valueTypeNotFound
            | some (k, v) => (PTy.fromText k).bind fun k => (fromSimple fuel v).map fun v => .map k v
        | none => match stripPrefix "optional(".toList s with
          | some s => match stripSuffix ')' s with
            | none => .error .unterminated
            | some s => (fromSimple fuel s).map Ty.optional
          | none => match stripPrefix "ref(".toList s with
            | some s => match stripSuffix ')' s with
              | none => .error .unterminated
              | some s => (fromSimple fuel s).map Ty.ref
            | none => .error .unknownType

def Ty.fromText (s : List Char) : Except TyErr Ty := fromSimple (s.length + 1) s

/-! ### Descriptions -/

mutual
/-- The object for a named type (`Helper` in `abi/ty.rs:77-83` and 102-108): name, type, components if there are any. -/
inductive Field
  | plain (name : String) (ty : List Char)
  | composite (name : String) (ty : List Char) (components : Fields)
inductive Fields
  | nil
  | cons (f : Field) (r : Fields)
end

/-- `abi/ty.rs:424-434` `components` -/
def Ty.components : Ty → Option Tys
  | .tuple ts => some ts
  | .array t => t.components
  | .fixedArray t _ => t.components
  | .map _ t => t.components
  | .optional t => t.components
  | .ref t => t.components
  | _ => none

/-- `abi/ty.rs:436-446` `components_mut`, and the assignment to what it returns. -/
def Ty.setComponents (ts : Tys) : Ty → Ty
  | .tuple _ => .tuple ts
  | .array t => .array (t.setComponents ts)
  | .fixedArray t n => .fixedArray (t.setComponents ts) n
  | .map k t => .map k (t.setComponents ts)
  | .optional t => .optional (t.setComponents ts)
  | .ref t => .ref (t.setComponents ts)
  | t => t

/-- A field with or without components. -/
def mkField (name : String) (ty : List Char) : Option Fields → Field
  | none => .plain name ty
  | some fs => .composite name ty fs

mutual
/-- The components of a type, as fields. -/
def Ty.fields : Ty → Option Fields
  | .tuple ts => some ts.fields
  | .array t => t.fields
  | .fixedArray t _ => t.fields
  | .map _ t => t.fields
  | .optional t => t.fields
  | .ref t => t.fields
  | _ => none
/-- `abi/ty.rs:71-92` `Serialize for NamedAbiType`, for a list of types. -/
def Tys.fields : Tys → Fields
  | .nil => .nil
  | .cons n t r => .cons (mkField n t.simple t.fields) r.fields
end

/-- `abi/ty.rs:71-92` `Serialize for NamedAbiType` -/
def toField (name : String) (t : Ty) : Field := mkField name t.simple t.fields

mutual
/-- `abi/ty.rs:110-147` `TryFrom<Helper> for NamedAbiType` -/
def fromField : Field → Except TyErr (String × Ty)
  | .plain n s => (Ty.fromText s).bind fun t => if t.components.isSome then .error .expectedComponents else .ok (n, t)
  | .composite n s cs => (Ty.fromText s).bind fun t =>
    if t.components.isSome then (fromFields cs).map fun ts => (n, t.setComponents ts) else .error .unexpectedComponents
def fromFields : Fields → Except TyErr Tys
  | .nil => .ok .nil
  | .cons f r => (fromField f).bind fun x => (fromFields r).map fun ts => .cons x.1 x.2 ts
end

/-! ### Signatures -/

/-- `abi/ty.rs:254-262` `Display for AbiHeaderType` -/
def Hdr.text : Hdr → List Char
  | .time => "time".toList
  | .expire => "expire".toList
  | .pubkey => "pubkey".toList

/-- `abi/ty.rs:241-252` `AbiHeaderType::from_str` -/
def Hdr.fromText (s : List Char) : Except TyErr Hdr :=
  if s = "time".toList then .ok .time else if s = "expire".toList then .ok .expire else if s = "pubkey".toList then .ok .pubkey else .error .unknownType

/-- `abi/contract.rs:1238-1269` `Display for FunctionSignatureRaw`: what the ids of functions are computed from. -/
def funcSignature (ver : Ver) (name : List Char) (headers : List Hdr) (inputs outputs : Tys) : List Char :=
  name ++ '(' :: (joinSep ',' ((if ver.major = 1 then headers.map Hdr.text else []) ++ inputs.texts) ++ (")(".toList ++ (joinSep ',' outputs.texts ++ (")v".toList ++ dec ver.major))))

/-- `abi/contract.rs:1284-1297` `Display for EventSignatureRaw` -/
def eventSignature (ver : Ver) (name : List Char) (inputs : Tys) : List Char :=
  name ++ '(' :: (joinSep ',' inputs.texts ++ (")v".toList ++ dec ver.major))

/-! ### Versions -/

/-- `abi/mod.rs:84-88` `Display for AbiVersion` -/
def Ver.text (v : Ver) : List Char := dec v.major ++ '.' :: dec v.minor

/-- `abi/mod.rs:65-82` `AbiVersion::from_str` -/
def Ver.fromText (s : List Char) : Option Ver :=
  match splitOnce '.' s with
  | none => none
  | some (a, b) => (parseUint 10 255 a).bind fun a => (parseUint 10 255 b).map fun b => ⟨a, b⟩

/-! ### Comparison without names -/

mutual
/-- `abi/ty.rs:699-740` `PartialEq for WithoutName<AbiType>` -/
def Ty.same : Ty → Ty → Bool
  | .uint a, .uint b => a == b
  | .int a, .int b => a == b
  | .varuint a, .varuint b => a == b
  | .varint a, .varint b => a == b
  | .bool, .bool => true
  | .cell, .cell => true
  | .address, .address => true
  | .bytes, .bytes => true
  | .fixedBytes a, .fixedBytes b => a == b
  | .string, .string => true
  | .token, .token => true
  | .tuple a, .tuple b => a.same b
  | .array a, .array b => a.same b
  | .fixedArray a n, .fixedArray b m => a.same b && n == m
  | .map k a, .map l b => decide (k = l) && a.same b
  | .optional a, .optional b => a.same b
  | .ref a, .ref b => a.same b
  | _, _ => false
def Tys.same : Tys → Tys → Bool
  | .nil, .nil => true
  | .cons _ a r, .cons _ b s => a.same b && r.same s
  | _, _ => false
end

/-! ### Conditions of the theorems -/

/-- The numbers of a key type are `u16`. -/
def PTy.Ok : PTy → Prop
  | .uint n => n < 2 ^ 16
  | .int n => n < 2 ^ 16
  | _ => True

mutual
/-- The numbers of a type are within their Rust types: `u16`, `NonZeroU8`, `usize`. -/
def Ty.Ok : Ty → Prop
  | .uint n => n < 2 ^ 16
  | .int n => n < 2 ^ 16
  | .varuint n => 1 ≤ n ∧ n < 2 ^ 8
  | .varint n => 1 ≤ n ∧ n < 2 ^ 8
  | .fixedBytes n => n < 2 ^ 64
  | .tuple ts => ts.Ok
  | .array t => t.Ok
  | .fixedArray t n => t.Ok ∧ n < 2 ^ 64
  | .map k t => k.Ok ∧ t.Ok
  | .optional t => t.Ok
  | .ref t => t.Ok
  | _ => True
def Tys.Ok : Tys → Prop
  | .nil => True
  | .cons _ t r => t.Ok ∧ r.Ok
end

end Abi
end Verif
