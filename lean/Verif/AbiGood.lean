import Verif.AbiLeaf
/-!
# Which ABI values come back

The conditions under which a value can be read from its serialized form. Values that violate them are in `AbiProps.lean`, as witnesses.
-/
set_option linter.unusedVariables false
set_option linter.unusedSimpArgs false
namespace Verif
namespace Abi

mutual
/-- The fixed arrays directly in a tuple: the serializer asks for two bits where the size of the type has one. -/
def Ty.fixed : Ty → Nat
  | .fixedArray _ _ => 1
  | .tuple ts => ts.fixed
  | _ => 0
def Tys.fixed : Tys → Nat
  | .nil => 0
  | .cons _ t r => t.fixed + r.fixed
end

mutual
/-- Values of the type begin with a reference and no bits. -/
def Ty.startsRef : Ty → Bool
  | .cell => true
  | .bytes => true
  | .fixedBytes _ => true
  | .string => true
  | .ref _ => true
  | .tuple ts => ts.startsRef
  | _ => false
def Tys.startsRef : Tys → Bool
  | .nil => false
  | .cons _ t _ => t.startsRef
end

mutual
/-- There is no empty map directly in the value or its tuples: the serializer asks for a reference that its size does not have. -/
def Val.noEmptyMap : Val → Bool
  | .map _ _ es => !es.isEmpty
  | .tuple items => items.noEmptyMap
  | _ => true
def Items.noEmptyMap : Items → Bool
  | .nil => true
  | .cons _ v r => v.noEmptyMap && r.noEmptyMap
end

/-- The value can be spread over cells: from version 2.2 on, or without empty maps, or if it is small enough for one cell. -/
def Regular (ver : Ver) (v : Val) : Prop :=
  ver.useMax = true ∨ v.noEmptyMap = true ∨ (v.type.max.bits + v.type.fixed ≤ 1023 ∧ v.type.max.refs ≤ 3)

/-- The type of a key. -/
def PVal.type : PVal → PTy
  | .uint n _ => .uint n
  | .int n _ => .int n
  | .bool _ => .bool
  | .address _ => .address

/-- The bits of a key. -/
def PVal.bits : PVal → Bits
  | .uint n v => natBits n v
  | .int n x => Big.twoBits n x
  | .bool b => [b]
  | .address a => (a.enc : Enc Cell).1

/-- A key of its type. -/
def PVal.Good : PVal → Prop
  | .uint n v => n ≤ 1023 ∧ v < 2 ^ n
  | .int n x => n ≤ 1023 ∧ Big.FitsI n x
  | .bool _ => True
  | .address a => a.Ok

/-- In version 1, values that are too large for a leaf must not begin with a reference. -/
def Inside (ver : Ver) (n : Nat) (t : Ty) : Prop := fitsLeaf n t.max.bits = false → ver.major = 1 → t.startsRef = false

mutual
/-- A value that comes back. -/
def Good (ver : Ver) : Val → Prop
  | .uint n v => 1 ≤ n ∧ n ≤ 1023 ∧ v < 2 ^ n
  | .int n x => 1 ≤ n ∧ n ≤ 1023 ∧ Big.FitsI n x
  | .varuint n _ => n ≤ 255 ∧ (ver.useMax = true → n ≤ 128)
  | .varint n x => n ≤ 255 ∧ (ver.useMax = true → n ≤ 128) ∧ (0 ≤ x → Big.FitsI (8 * (Big.toBytesLe x.natAbs).length) x)
  | .bool _ => True
  | .cell _ => True
  | .address a => a.Ok
  | .bytes _ => True
  | .fixedBytes _ => True
  | .string d => utf8 d = true
  | .token v => v ≤ VarKind.tokens.max
  | .tuple items => items ≠ .nil ∧ GoodItems ver items
  | .array t vs => vs.length < 2 ^ 32 ∧ Inside ver 32 t ∧ GoodElems ver t vs
  | .fixedArray t vs => vs.length < 2 ^ 32 ∧ Inside ver 32 t ∧ GoodElems ver t vs
  | .map k t es => k.bits ≤ 1011 ∧ Inside ver k.bits t ∧ GoodEntries ver k t es ∧ es.keys.Pairwise (fun a b => natOfBits a.bits < natOfBits b.bits)
  | .absent _ => True
  | .present t v => v.type = t ∧ Good ver v ∧ (if t.max.small then t.max.bits + t.fixed ≤ 1023 else Regular ver v)
  | .ref v => Good ver v ∧ Regular ver v
def GoodItems (ver : Ver) : Items → Prop
  | .nil => True
  | .cons _ v r => Good ver v ∧ GoodItems ver r
def GoodElems (ver : Ver) (t : Ty) : Elems → Prop
  | .nil => True
  | .cons v r => v.type = t ∧ Good ver v ∧ Regular ver v ∧ GoodElems ver t r
def GoodEntries (ver : Ver) (k : PTy) (t : Ty) : Entries → Prop
  | .nil => True
  | .cons key v r => key.type = k ∧ key.Good ∧ v.type = t ∧ Good ver v ∧ Regular ver v ∧ GoodEntries ver k t r
end

end Abi
end Verif
