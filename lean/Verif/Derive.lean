import Verif.TlbDep
import Verif.Text
/-
The derive macros `Store` and `Load` (`proc/src/derive_store.rs`, `proc/src/derive_load.rs`) as functions from the description of a
struct to the programs that they generate.

Modelled: structs, their tags, `since_tag`, `validate_with`. A field is given by the codec of its type (the macros call the
codec or the builder method for the type by name; both are the same program), its `since_tag`, and its `Default` value.
Not modelled: generics, lifetimes, enums (the macros panic on them), the text of the generated code.
-/
set_option linter.unusedVariables false
namespace Verif.Derive

/-- A tag (`proc/src/internals/attr.rs:142-146`): `value: u32`, `bits: u8`. -/
structure TlbTag where
  value : Nat
  bits : Nat
deriving DecidableEq, Repr

/-- `proc/src/internals/attr.rs:128-133` `ContainerTag` -/
inductive Tags where
  | none
  | single (t : TlbTag)
  | multiple (ts : List TlbTag)

/-- `proc/src/internals/attr.rs:146-172` `parse_tag`, for a text without white space around it. -/
def parseTag : List Char → Option TlbTag
  | '#' :: r => (Text.parseUint 16 (2 ^ 32 - 1) r).map fun v => ⟨v, r.length * 4 % 256⟩
  | '$' :: r => (Text.parseUint 2 (2 ^ 32 - 1) r).map fun v => ⟨v, r.length % 256⟩
  | _ => none

/-- A field: the `Store` and `Load` of its type, the attribute `since_tag`, and the `Default` value of its type with the
comparison `!=` on it. For fields without `since_tag` neither is used by the macros. -/
structure Field where
  α : Type
  dec : DecidableEq α
  codec : Tlb α
  since : Option Nat
  dflt : α

instance (f : Field) : DecidableEq f.α := f.dec

/-- The values of the fields of a struct. -/
@[reducible] def Vals : List Field → Type
  | [] => Unit
  | f :: fs => f.α × Vals fs

/-- A struct with its attributes: `#[tlb(tag = .., validate_with = ..)]`; `unit` for a struct without braces. -/
structure Struct where
  fields : List Field
  unit : Bool
  tags : Tags
  valid : Option (Vals fields → Bool)

/-- The indices in the `since_tag` attributes. -/
def sinces : List Field → List Nat
  | [] => []
  | f :: fs => match f.since with
    | some s => s :: sinces fs
    | none => sinces fs

/-- All tags have the width of the first (`proc/src/internals/ast.rs:70-84`). -/
def sameWidth : List TlbTag → Bool
  | [] => true
  | t :: ts => ts.all fun u => u.bits == t.bits

/-- The number of tags (`proc/src/internals/ast.rs:64-88`). -/
def Tags.count : Tags → Nat
  | .none => 0
  | .single _ => 1
  | .multiple ts => ts.length

/-- The macros accept the struct (`proc/src/internals/ast.rs:48-120` `validate`; an empty list of tags is refused by
`attr.rs:181-184`). -/
def Struct.accepted (S : Struct) : Bool :=
  ((sinces S.fields).all fun s => s < S.tags.count) &&
    match S.tags with
    | .multiple ts => sameWidth ts && !ts.isEmpty && (List.range ts.length).all fun i => i == 0 || (sinces S.fields).contains i
    | _ => true

/-! ### The generated `store_into` -/

/-- `derive_store.rs:110-143` `store_tag`: the call for a tag, by its width. -/
def storeTag (t : TlbTag) : Option (Wr Cell Unit) :=
  if t.bits = 0 then none
  else if t.bits = 1 then some (if t.value = 0 then Wr.bit false else Wr.bit true)
  else if t.bits ≤ 7 then some (Wr.small (t.value % 2 ^ 8) t.bits)
  else if t.bits = 8 then some (Wr.u8 (t.value % 2 ^ 8))
  else if t.bits = 16 then some (Wr.u16 (t.value % 2 ^ 16))
  else if t.bits = 32 then some (Wr.u32 t.value)
  else some (Wr.uint t.value t.bits)

/-- `derive_store.rs:157-177`: the guards that compute `__tag_version`, one for each field with `since_tag`, in order. -/
def guards : (fs : List Field) → Vals fs → Nat → Nat
  | [], _, acc => acc
  | f :: fs, (v, vs), acc => match f.since with
    | some s => guards fs vs (if v ≠ f.dflt then max acc s else acc)
    | none => guards fs vs acc

/-- The value of `__tag_version` behind the guards. -/
def tagVersion (fs : List Field) (v : Vals fs) : Nat := guards fs v 0

/-- `derive_store.rs:147-202` `store_tags_versioned`: the variable `__tag_version` (if there is one) and the call for the tag. -/
def storeTags (ts : List TlbTag) (fs : List Field) (v : Vals fs) : Option Nat × Option (Wr Cell Unit) :=
  match ts with
  | [] => (none, none)
  | first :: _ =>
    if sinces fs = [] then (none, storeTag first)
    else match storeTag first with
      | none => (some (tagVersion fs v), none)
      | some sf =>
        let k := tagVersion fs v
        (some k, some (if k ≠ 0 ∧ k ∈ sinces fs then ((ts[k]?).bind storeTag).getD sf else sf))

/-- `derive_store.rs:70-88`: one field; it is skipped if it has `since_tag` and the version is older. -/
def storeField (ver : Option Nat) (f : Field) (v : f.α) : Wr Cell Unit :=
  match f.since, ver with
  | some s, some k => if k ≥ s then f.codec.store v else pure ()
  | _, _ => f.codec.store v

/-- `derive_store.rs:62-90`: the fields in order. -/
def storeFields (ver : Option Nat) : (fs : List Field) → Vals fs → Wr Cell Unit
  | [], _ => pure ()
  | f :: fs, (v, vs) => storeField ver f v >>= fun _ => storeFields ver fs vs

/-- The tag and its variable (`derive_store.rs:55-60`). -/
def storeHead (S : Struct) (v : Vals S.fields) : Option Nat × Option (Wr Cell Unit) :=
  match S.tags with
  | .none => (none, none)
  | .single t => (none, storeTag t)
  | .multiple ts => storeTags ts S.fields v

/-- The call for the tag, if there is one. -/
def orNothing : Option (Wr Cell Unit) → Wr Cell Unit
  | some w => w
  | none => pure ()

/-- The guard of `validate_with` (`derive_store.rs:97-101`). -/
def storeCheck (S : Struct) (v : Vals S.fields) : Wr Cell Unit :=
  match S.valid with
  | some c => Prog.check (c v) .invalidData
  | none => pure ()

/-- `derive_store.rs:51-113` `build_struct`: a unit struct stores its tag only, without validation. -/
def Struct.store (S : Struct) (v : Vals S.fields) : Wr Cell Unit :=
  let (ver, tag) := storeHead S v
  if S.unit then orNothing tag
  else storeCheck S v >>= fun _ => orNothing tag >>= fun _ => storeFields ver S.fields v

/-! ### The generated `load_from` -/

/-- `derive_load.rs:192-221` `load_tag_op_value`: the call, by the width. -/
def loadOp (bits : Nat) : Option (Rd Cell Nat) :=
  if bits = 0 then none
  else if bits = 1 then some (Rd.bit >>= fun b => pure b.toNat)
  else if bits ≤ 7 then some (Rd.small bits)
  else if bits = 8 then some Rd.u8
  else if bits = 16 then some Rd.u16
  else if bits = 32 then some Rd.u32
  else some (Rd.uint bits)

/-- The literal that the loaded number is compared with (`derive_load.rs:150-177`, `:192-221`). -/
def tagValue (t : TlbTag) : Nat :=
  if t.bits = 1 then (decide (t.value ≠ 0)).toNat
  else if t.bits ≤ 8 then t.value % 2 ^ 8
  else if t.bits = 16 then t.value % 2 ^ 16
  else t.value

/-- `derive_load.rs:132-142` `load_tag` -/
def loadTag (t : TlbTag) : Option (Rd Cell Unit) :=
  (loadOp t.bits).map fun op => op >>= fun u => Prog.check (decide (u = tagValue t)) .invalidTag

/-- The index of the first arm that matches. -/
def firstArm (u : Nat) : List Nat → Nat → Option Nat
  | [], _ => none
  | a :: as, i => if u = a then some i else firstArm u as (i + 1)

/-- `derive_load.rs:138-190` `load_tags_versioned`: the index of the tag that was loaded. -/
def loadTags (ts : List TlbTag) : Option (Rd Cell Nat) :=
  match ts with
  | [] => none
  | first :: rest => (loadOp first.bits).map fun op => op >>= fun u =>
      match firstArm u (tagValue first :: (rest.filter fun t => t.bits ≠ 0).map tagValue) 0 with
      | some i => pure i
      | none => Prog.fail .invalidTag

/-- `derive_load.rs:84-98`: one field; it gets its default if it has `since_tag` and the version is older. -/
def loadField (ver : Option Nat) (f : Field) : Rd Cell f.α :=
  match f.since, ver with
  | some s, some k => if k ≥ s then f.codec.load else pure f.dflt
  | _, _ => f.codec.load

/-- `derive_load.rs:84-110`: the fields in order. -/
def loadFields (ver : Option Nat) : (fs : List Field) → Rd Cell (Vals fs)
  | [] => pure ()
  | f :: fs => loadField ver f >>= fun v => loadFields ver fs >>= fun vs => pure (v, vs)

/-- `derive_load.rs:71-82`: the tag; the result is the variable `__tag_version`, if there is one. -/
def loadHead (S : Struct) : Rd Cell (Option Nat) :=
  match S.tags with
  | .none => pure none
  | .single t => match loadTag t with
    | some l => l >>= fun _ => pure none
    | none => pure none
  | .multiple ts => match loadTags ts with
    | some l => l >>= fun k => pure (some k)
    | none => pure none

/-- `derive_load.rs:67-130` `build_struct` -/
def Struct.load (S : Struct) : Rd Cell (Vals S.fields) :=
  loadHead S >>= fun ver => loadFields ver S.fields >>= fun v =>
    match S.valid with
    | some c => Prog.check (c v) .invalidData >>= fun _ => pure v
    | none => pure v

/-! ### Specification: the scheme that the attributes describe -/

/-- The version in which the field appeared: fields without `since_tag` have always been there. -/
def Field.from (f : Field) : Nat := f.since.getD 0

/-- The bits of a tag. -/
def TlbTag.code (t : TlbTag) : Bits := natBits t.bits t.value

/-- In version `k` of the scheme: the fields of that version in order; the others have their default values and are not written. -/
def fieldsR (k : Nat) : (fs : List Field) → Vals fs → Enc Cell → Prop
  | [], _ => fun e => e = Enc.nil
  | f :: fs, (v, vs) => if f.from ≤ k then f.codec.R v ⬝ fieldsR k fs vs else fun e => v = f.dflt ∧ fieldsR k fs vs e

/-- The fields that appeared behind version `k` have their default values. -/
def DefaultsAbove (k : Nat) : (fs : List Field) → Vals fs → Prop
  | [], _ => True
  | f :: fs, (v, vs) => (k < f.from → v = f.dflt) ∧ DefaultsAbove k fs vs

/-- The fields of version `k` can be stored. -/
def FieldsOk (k : Nat) : (fs : List Field) → Vals fs → Prop
  | [], _ => True
  | f :: fs, (v, vs) => (f.from ≤ k → f.codec.ok v) ∧ FieldsOk k fs vs

/-- What is stored of the fields in version `k`. -/
def fieldsEnc (k : Nat) : (fs : List Field) → Vals fs → Enc Cell
  | [], _ => Enc.nil
  | f :: fs, (v, vs) => if f.from ≤ k then f.codec.enc v ++ fieldsEnc k fs vs else fieldsEnc k fs vs

/-- The value passes the validation. -/
def Struct.Valid (S : Struct) (v : Vals S.fields) : Prop := ∀ c, S.valid = some c → c v = true

/-- The scheme: some version of it, the tag of that version, and the fields of that version. -/
def Struct.R (S : Struct) (v : Vals S.fields) (e : Enc Cell) : Prop :=
  S.Valid v ∧ match S.tags with
    | .none => fieldsR 0 S.fields v e
    | .single t => (Enc.Lit t.code ⬝ fieldsR 0 S.fields v) e
    | .multiple ts => ∃ k t, ts[k]? = some t ∧ (Enc.Lit t.code ⬝ fieldsR k S.fields v) e

/-- What is stored in version `k`. -/
def Struct.encAt (S : Struct) (k : Nat) (v : Vals S.fields) : Enc Cell :=
  match S.tags with
  | .none => fieldsEnc k S.fields v
  | .single t => Enc.bits t.code ++ fieldsEnc k S.fields v
  | .multiple ts => match ts[k]? with
    | some t => Enc.bits t.code ++ fieldsEnc k S.fields v
    | none => Enc.nil

/-- The oldest version that can hold the value: the latest `from` among the fields that differ from their defaults. -/
def oldest : (fs : List Field) → Vals fs → Nat
  | [], _ => 0
  | f :: fs, (v, vs) => if v = f.dflt then oldest fs vs else max f.from (oldest fs vs)

/-- `fs` with the values `v` is a later form of `fs'` with the values `w`: the fields that appeared behind version `k` were added
anywhere, and they have their default values. -/
inductive Extends (k : Nat) : (fs : List Field) → Vals fs → (fs' : List Field) → Vals fs' → Prop
  | nil : Extends k [] () [] ()
  | keep (f : Field) (x : f.α) {fs : List Field} {v : Vals fs} {fs' : List Field} {w : Vals fs'} :
      f.from ≤ k → Extends k fs v fs' w → Extends k (f :: fs) (x, v) (f :: fs') (x, w)
  | new (f : Field) {fs : List Field} {v : Vals fs} {fs' : List Field} {w : Vals fs'} :
      k < f.from → Extends k fs v fs' w → Extends k (f :: fs) (f.dflt, v) fs' w

/-- Every field has one encoding for each value. -/
def CanonicalFields (fs : List Field) : Prop := ∀ f ∈ fs, ∀ v e, f.codec.R v e → e = f.codec.enc v

/-- The derived implementation with its scheme. -/
def Struct.codec (S : Struct) : Tlb (Vals S.fields) where
  ok v := S.Valid v ∧ FieldsOk (match S.tags with | .multiple _ => oldest S.fields v | _ => 0) S.fields v
  store := S.store
  load := S.load
  R := S.R
  enc v := S.encAt (match S.tags with | .multiple _ => oldest S.fields v | _ => 0) v

/-- The tags of the struct. -/
def Tags.list : Tags → List TlbTag
  | .none => []
  | .single t => [t]
  | .multiple ts => ts

/-- The tag fits its width, and the width is one that numbers are stored with. -/
def TlbTag.Good (t : TlbTag) : Prop := 1 ≤ t.bits ∧ t.bits ≤ 64 ∧ t.value < 2 ^ t.bits ∧ t.value < 2 ^ 32

/-- What the macros need: they accept the struct, the tags fit and are different, the codecs of the fields are sound, and a unit
struct has no fields. -/
structure Struct.Good (S : Struct) : Prop where
  accepted : S.accepted = true
  tags : ∀ t ∈ S.tags.list, t.Good
  distinct : (S.tags.list.map TlbTag.value).Nodup
  fields : ∀ f ∈ S.fields, f.codec.Sound
  unit : S.unit = true → S.fields = []

end Verif.Derive
