import Verif.VsetProps
import Verif.ConfigParams
import Verif.TypedDictMore
import Verif.CurrencyProps
/-
Validator descriptions and validator sets in cells (`models/config/params.rs`), and dictionaries whose root is stored in
place (`dict/mod.rs`).
-/
set_option linter.unusedVariables false
set_option linter.unusedSimpArgs false
namespace Verif

/-! ### Model -/

/-- `dict/mod.rs:425-445` `dict_load_from_root`: the rest of a slice begins with the root of a dictionary of `n`-bit keys. A root
that is a leaf takes all that remains. Simplification: after an error the slice is left as it was (the code may have consumed
the label); all callers stop at the error. -/
def rootInPlace (acc : Cell → Bool) (n : Nat) : Rd Cell Cell := fun s =>
  match readLabel ⟨s.bits, s.refList⟩ n with
  | .error e => (.error e, s)
  | .ok (l, v) =>
    if l.length ≠ n then
      if v.refs.length < 2 then (.error .cellUnderflow, s)
      else (buildSl acc ⟨s.bits.take (s.bits.length - v.bits.length), s.refList.take 2⟩,
        { s with range := { s.range with bitsStart := s.range.bitsStart + (s.bits.length - v.bits.length), refsStart := s.range.refsStart + 2 } })
    else (buildSl acc ⟨s.bits, s.refList⟩, { s with range := { s.range with bitsStart := s.range.bitsEnd, refsStart := s.range.refsEnd } })

namespace Vset

/-- `models/config/params.rs:1399-1404` -/
def pubkeyTag : Nat := 0x8e81278a

/-- Thirty-two zeros. -/
def zeroHash : List Byte := List.replicate 32 0

/-- The part of `ValidatorDescription::store_into` that stores the address, if there is one. -/
def storeAdnl : Option (List Byte) → Wr Cell Unit
  | some a => Wr.u256 a
  | none => pure ()

/-- `models/config/params.rs:1416-1448` `Store for ValidatorDescription`. With `mc_seqno_since` the address is replaced by zeros. -/
def Validator.store (v : Validator) : Wr Cell Unit :=
  Wr.u8 (if v.mcSeqnoSince ≠ 0 then 0x93 else if v.adnl.isSome then 0x73 else 0x53) >>= fun _ =>
  Wr.u32 pubkeyTag >>= fun _ =>
  Wr.u256 v.publicKey >>= fun _ =>
  Wr.u64 v.weight >>= fun _ =>
  storeAdnl (if v.mcSeqnoSince ≠ 0 then some zeroHash else v.adnl) >>= fun _ =>
  if v.mcSeqnoSince ≠ 0 then Wr.u32 v.mcSeqnoSince else pure ()

/-- The rest of `ValidatorDescription::load_from` behind the tag. -/
def Validator.loadRest (adnl seqno : Bool) : Rd Cell Validator :=
  Rd.u32 >>= fun t => Prog.check (decide (t = pubkeyTag)) .invalidTag >>= fun _ =>
  Rd.u256 >>= fun key => Rd.u64 >>= fun w =>
  (if adnl then Rd.u256 >>= fun a => pure (some a) else pure none) >>= fun a =>
  (if seqno then Rd.u32 else pure 0) >>= fun q => pure ⟨key, w, a, q, 0⟩

/-- `models/config/params.rs:1450-1483` `Load for ValidatorDescription` -/
def Validator.load : Rd Cell Validator :=
  Rd.u8 >>= fun t =>
  if t = 0x53 then Validator.loadRest false false else if t = 0x73 then Validator.loadRest true false
  else if t = 0x93 then Validator.loadRest true true else Prog.fail .invalidTag

/-- `Dict<u16, ValidatorDescription>` -/
def validators : DictType Nat Validator := ⟨Key.u16, Validator.store, Validator.load⟩

/-- `models/config/params.rs:1250-1253`: the loop that fills the dictionary, from the index `i` on. -/
def setOne (acc : Cell → Bool) (i : Nat) (v : Validator) (d : Option Cell) : DictRes Bool := validators.insert acc d (i % 2 ^ 16) v .set

attribute [irreducible] setOne

@[inherit_doc setOne] def setAll (acc : Cell → Bool) : Nat → List Validator → Option Cell → Except Err (Option Cell)
  | _, [], d => .ok d
  | i, v :: vs, d => match setOne acc i v d with
    | (.error e, _) => .error e
    | (.ok _, d') => setAll acc (i + 1) vs d'

/-- `models/config/params.rs:1255-1261`: the fields of a validator set behind the tag, in the newer form. -/
def fields : Tlb (Nat × Nat × Nat × Nat × Nat × Option Cell) :=
  Tlb.u32.pair (Tlb.u32.pair (Tlb.u16.pair (Tlb.u16.pair (Tlb.u64.pair Tlb.dict))))

/-- `models/config/params.rs:1239-1263` `Store for ValidatorSet` -/
def ValidatorSet.store (acc : Cell → Bool) (vs : ValidatorSet) : Wr Cell Unit := fun b =>
  if vs.list.length < 2 ^ 16 then
    match setAll acc 0 vs.list none with
    | .error e => (.error e, b)
    | .ok d => (Wr.u8 0x12 >>= fun _ => fields.store (vs.utimeSince, vs.utimeUntil, vs.list.length, vs.main, vs.totalWeight, d)) b
  else (.error .intOverflow, b)

/-- `models/config/params.rs:1297-1313`: the loop over the entries of the dictionary: at most `n` more, the next index is `i`, the
weight so far is `w`. -/
def collect : Nat → Nat → Nat → RawIter → Except Err (List Validator × Nat)
  | 0, _, w, _ => .ok ([], w)
  | n + 1, i, w, it => match validators.next it with
    | (none, _) => .ok ([], w)
    | (some (.error e), _) => .error e
    | (some (.ok (idx, v)), it') =>
      if idx = i then
        if w + v.weight < 2 ^ 64 then
          match collect n (i + 1) (w + v.weight) it' with
          | .error e => .error e
          | .ok (l, total) => .ok ({ v with prevWeight := w } :: l, total)
        else .error .invalidData
      else .error .invalidData

/-- `models/config/params.rs:1295-1331`: the end of `ValidatorSet::load_from`; `weight` is the declared weight, if there is one. -/
def finish (since till total main : Nat) (weight : Option Nat) (d : Option Cell) : Except Err ValidatorSet :=
  match collect total 0 0 (RawIter.new d 16 false false) with
  | .error e => .error e
  | .ok (l, w) =>
    if l = [] then .error .invalidData
    else if weight.isSome ∧ weight ≠ some w then .error .invalidData
    else .ok ⟨since, till, main, w, l⟩

/-- `models/config/params.rs:1283-1293`: the declared weight and the dictionary. -/
def loadDict (acc : Cell → Bool) (withWeight : Bool) : Rd Cell (Option Nat × Option Cell) :=
  if withWeight then Rd.u64 >>= fun w => Tlb.dict.load >>= fun d => pure (some w, d)
  else rootInPlace acc 16 >>= fun c => pure (none, some c)

/-- `finish` as a step of the loader. -/
def finishRd (since till total main : Nat) (p : Option Nat × Option Cell) : Rd Cell ValidatorSet := fun s => (finish since till total main p.1 p.2, s)

/-- `models/config/params.rs:1265-1333` `Load for ValidatorSet` -/
def ValidatorSet.load (acc : Cell → Bool) : Rd Cell ValidatorSet :=
  Rd.u8 >>= fun t =>
  (if t = 0x11 then pure false else if t = 0x12 then pure true else Prog.fail .invalidTag) >>= fun withWeight =>
  Rd.u32 >>= fun since => Rd.u32 >>= fun till => Rd.u16 >>= fun total => Tlb.nz16.load >>= fun main =>
  Prog.check (decide (main ≤ total)) .invalidData >>= fun _ =>
  loadDict acc withWeight >>= finishRd since till total main

/-! ### Specification -/

/-- A validator as it survives a cell: the weight before it is not stored, and neither is the address if there is a
`mc_seqno_since`. -/
def Validator.plain (v : Validator) : Validator :=
  { v with prevWeight := 0, adnl := if v.mcSeqnoSince ≠ 0 then some zeroHash else v.adnl }

/-- The fields are in the ranges of their types. -/
def Validator.InRange (v : Validator) : Prop :=
  v.publicKey.length = 32 ∧ v.weight < 2 ^ 64 ∧ (∀ a ∈ v.adnl, a.length = 32) ∧ v.mcSeqnoSince < 2 ^ 32

@[inherit_doc Validator.InRange] def ValidatorSet.InRange (vs : ValidatorSet) : Prop :=
  vs.utimeSince < 2 ^ 32 ∧ vs.utimeUntil < 2 ^ 32 ∧ vs.main < 2 ^ 16 ∧ vs.totalWeight < 2 ^ 64 ∧ ∀ v ∈ vs.list, v.InRange

/-- Every validator together with the weight of those before it, the first one being preceded by the weight `w`. -/
def weighted : Nat → List Validator → List Validator
  | _, [] => []
  | w, v :: l => { v with prevWeight := w } :: weighted (w + v.weight) l

/-- The sum of the weights. -/
def weightOf (l : List Validator) : Nat := (l.map (·.weight)).sum

/-- The grammar of a validator description. -/
def Validator.R (v : Validator) (e : Enc Cell) : Prop :=
  v.InRange ∧ v.prevWeight = 0 ∧
  match v.adnl with
  | none => v.mcSeqnoSince = 0 ∧ e = Enc.bits (natBits 8 0x53 ++ (natBits 32 pubkeyTag ++ (bytesToBits v.publicKey ++ natBits 64 v.weight)))
  | some a => (v.mcSeqnoSince = 0 ∧
      e = Enc.bits (natBits 8 0x73 ++ (natBits 32 pubkeyTag ++ (bytesToBits v.publicKey ++ (natBits 64 v.weight ++ bytesToBits a))))) ∨
    e = Enc.bits (natBits 8 0x93 ++ (natBits 32 pubkeyTag ++ (bytesToBits v.publicKey ++ (natBits 64 v.weight ++ (bytesToBits a ++ natBits 32 v.mcSeqnoSince)))))

/-- What the code stores. -/
def Validator.enc (v : Validator) : Enc Cell :=
  if v.mcSeqnoSince ≠ 0 then
    Enc.bits (natBits 8 0x93 ++ (natBits 32 pubkeyTag ++ (bytesToBits v.publicKey ++ (natBits 64 v.weight ++ (bytesToBits (v.adnl.getD zeroHash) ++ natBits 32 v.mcSeqnoSince)))))
  else match v.adnl with
    | some a => Enc.bits (natBits 8 0x73 ++ (natBits 32 pubkeyTag ++ (bytesToBits v.publicKey ++ (natBits 64 v.weight ++ bytesToBits a))))
    | none => Enc.bits (natBits 8 0x53 ++ (natBits 32 pubkeyTag ++ (bytesToBits v.publicKey ++ natBits 64 v.weight)))

/-- The root `d` is a dictionary of these validators, in any legal encoding. -/
def Holds (acc : Cell → Bool) (d : Option Cell) (m : Nat → Option Validator) : Prop :=
  ∃ raw, Represents acc 16 d raw ∧ MapIs 16 (fun i => i < 2 ^ 16) (natBits 16) (Verif.Holds Validator.R) raw m

end Vset
end Verif
