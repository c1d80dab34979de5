import Verif.ConfigParams
import Verif.Block
import Verif.VsetCodecProps
/-
The dictionary of configuration parameters (`models/config/mod.rs`).
-/
set_option linter.unusedVariables false
set_option linter.unusedSimpArgs false
namespace Verif
namespace Config

/-- `models/config/mod.rs:53-57` `BlockchainConfigParams(Dict<u32, Cell>)`; the value is the optional root. -/
def params : DictType Nat Cell := ⟨Key.u32, Wr.ref, Rd.ref⟩

/-- `Dict::get_raw` (`dict/typed.rs:249-275`) -/
def getRawEntry (d : Option Cell) (id : Nat) : Except Err (Option Sl) := do
  let key ← params.keyOf id
  dictGet d 32 key

/-- `models/config/mod.rs:551-570` `get_raw_cell`, `get_raw_cell_ref`: the first reference of the entry. -/
def getRawCell (d : Option Cell) (id : Nat) : Except Err (Option Cell) :=
  match getRawEntry d id with
  | .error e => .error e
  | .ok none => .ok none
  | .ok (some s) => match s.refs with
    | c :: _ => .ok (some c)
    | [] => .error .cellUnderflow

/-- `models/config/mod.rs:572-577` `set_raw` -/
def setRaw (acc : Cell → Bool) (d : Option Cell) (id : Nat) (c : Cell) : DictRes Bool := params.insert acc d id c .set

/-- `models/config/mod.rs:579-588` `remove` -/
def remove (acc : Cell → Bool) (d : Option Cell) (id : Nat) : DictRes (Option Cell) :=
  if id = 0 then (.ok none, d) else params.remove acc d id

/-- `models/config/mod.rs:516-523` `contains`, `contains_raw` -/
def contains (d : Option Cell) (id : Nat) : Except Err Bool := params.contains d id

/-- `models/config/mod.rs:612-622` `KnownConfigParam`: the number of a parameter and how its value is stored and loaded. -/
structure Known (α : Type) where
  id : Nat
  store : α → Wr Cell Unit
  load : Rd Cell α

/-- `models/config/mod.rs:526-534` `get` (with `get_raw`, `:543-548`, which refuses exotic cells). -/
def get {α : Type} (p : Known α) (d : Option Cell) : Except Err (Option α) :=
  match getRawCell d p.id with
  | .error e => .error e
  | .ok none => .ok none
  | .ok (some c) => (Tlb.parseAs p.load c).map some

/-- `models/config/mod.rs:537-540` `set`, and the setters, which do the same. -/
def set {α : Type} (acc : Cell → Bool) (p : Known α) (d : Option Cell) (v : α) : DictRes Bool :=
  match (p.store v).toSl >>= buildSl acc with
  | .error e => (.error e, d)
  | .ok c => setRaw acc d p.id c

/-- `ok!(self.get::<P>()).ok_or(Error::CellUnderflow)` -/
def required {α : Type} (p : Known α) (d : Option Cell) : Except Err α :=
  match get p d with
  | .error e => .error e
  | .ok none => .error .cellUnderflow
  | .ok (some v) => .ok v

/-- The getters with a fallback (`models/config/mod.rs:84-89`, `115-120`, `488-493`). -/
def requiredOr {α : Type} (p q : Known α) (d : Option Cell) : Except Err α :=
  match get p d with
  | .error e => .error e
  | .ok none => required q d
  | .ok (some v) => .ok v

/-- The getters of an optional value with a fallback (`models/config/mod.rs:478-483`, `498-503`). -/
def optionalOr {α : Type} (p q : Known α) (d : Option Cell) : Except Err (Option α) :=
  match get p d with
  | .error e => .error e
  | .ok none => get q d
  | .ok (some v) => .ok (some v)

/-- A parameter with `ParamIdentity` (`models/config/mod.rs:634-665`). -/
def plain {α : Type} (id : Nat) (T : Tlb α) : Known α := ⟨id, T.store, T.load⟩

/-- A parameter with `NonEmptyDict` and keys of `n` bits (`models/config/mod.rs:687-721`). -/
def nonEmpty (acc : Cell → Bool) (id n : Nat) : Known (Option Cell) where
  id := id
  store d := match d with
    | none => Prog.fail .invalidData
    | some c => if c.exotic then Prog.fail .unexpectedExoticCell else Wr.slice (Sl.reader ⟨c.bits, c.refs⟩)
  load := rootInPlace acc n >>= fun c => pure (some c)

/-- A validator set (`models/config/mod.rs:1087-1122`). -/
def vset (acc : Cell → Bool) (id : Nat) : Known Vset.ValidatorSet := ⟨id, Vset.ValidatorSet.store acc, Vset.ValidatorSet.load acc⟩

/-! The table of parameters, `models/config/mod.rs:928-1135`. Those that are kept as slices (6, 13, 30) are left out. -/

def p0 : Known (List Byte) := plain 0 Tlb.hash
def p1 : Known (List Byte) := plain 1 Tlb.hash
def p2 : Known (List Byte) := plain 2 Tlb.hash
def p3 : Known (List Byte) := plain 3 Tlb.hash
def p4 : Known (List Byte) := plain 4 Tlb.hash
def p5 : Known BurningConfig := plain 5 burningConfig
def p7 : Known (Option Cell) := plain 7 Tlb.dict
def p8 : Known GlobalVersion := plain 8 globalVersion
def p9 (acc : Cell → Bool) : Known (Option Cell) := nonEmpty acc 9 32
def p10 (acc : Cell → Bool) : Known (Option Cell) := nonEmpty acc 10 32
def p11 : Known VotingSetup := plain 11 votingSetup
def p12 : Known (Option Cell) := plain 12 Tlb.dict
def p14 : Known BlockRewards := plain 14 blockRewards
def p15 : Known ElectionTimings := plain 15 electionTimings
def p16 : Known ValidatorCounts := plain 16 validatorCounts
def p17 : Known StakeParams := plain 17 stakeParams
def p18 (acc : Cell → Bool) : Known (Option Cell) := nonEmpty acc 18 32
def p19 : Known Int := plain 19 Tlb.i32
def p20 : Known GasPrices := plain 20 gasPrices
def p21 : Known GasPrices := plain 21 gasPrices
def p22 : Known BlockLimits := plain 22 blockLimits
def p23 : Known BlockLimits := plain 23 blockLimits
def p24 : Known FwdPrices := plain 24 fwdPrices
def p25 : Known FwdPrices := plain 25 fwdPrices
def p28 : Known CatchainConfig := plain 28 catchainConfig
def p29 : Known ConsensusConfig := plain 29 consensusConfig
def p31 : Known (Option Cell) := plain 31 Tlb.dict
def p43 : Known SizeLimits := plain 43 sizeLimits
def p50 : Known MintOnceConfig := plain 50 mintOnce

/-- `models/config/mod.rs:70-89`, `115-120`: `get_elector_address`, `get_minter_address`, `get_fee_collector_address`. -/
def electorAddress (d : Option Cell) := required p1 d
@[inherit_doc electorAddress] def minterAddress (d : Option Cell) := requiredOr p2 p0 d
@[inherit_doc electorAddress] def feeCollectorAddress (d : Option Cell) := requiredOr p3 p1 d

/-- `models/config/mod.rs:316-322`, `344-350`, `372-378` `get_gas_prices`, `get_block_limits`, `get_msg_forward_prices` -/
def gasParam (masterchain : Bool) : Known GasPrices := if masterchain then p20 else p21
@[inherit_doc gasParam] def limitsParam (masterchain : Bool) : Known BlockLimits := if masterchain then p22 else p23
@[inherit_doc gasParam] def fwdParam (masterchain : Bool) : Known FwdPrices := if masterchain then p24 else p25

/-- `models/config/mod.rs:464-503`: the getters of validator sets. -/
def previousSet (acc : Cell → Bool) (d : Option Cell) := optionalOr (vset acc 33) (vset acc 32) d
@[inherit_doc previousSet] def currentSet (acc : Cell → Bool) (d : Option Cell) := requiredOr (vset acc 35) (vset acc 34) d
@[inherit_doc previousSet] def nextSet (acc : Cell → Bool) (d : Option Cell) := optionalOr (vset acc 37) (vset acc 36) d
@[inherit_doc previousSet] def containsPrevious (d : Option Cell) : Except Err Bool :=
  match contains d 32 with
  | .error e => .error e
  | .ok true => .ok true
  | .ok false => contains d 33
@[inherit_doc previousSet] def containsNext (d : Option Cell) : Except Err Bool :=
  match contains d 36 with
  | .error e => .error e
  | .ok true => .ok true
  | .ok false => contains d 37

/-- A set of numbers (`Dict<u32, ()>`); `()` has no encoding (`cell/builder.rs:79-84`, `cell/slice.rs:84-89`). -/
def numbers : DictType Nat Unit := ⟨Key.u32, fun _ => pure (), pure ()⟩
/-- A set of addresses (`Dict<HashBytes, ()>`). -/
def addresses : DictType (List Byte) Unit := ⟨Key.hash, fun _ => pure (), pure ()⟩
/-- The history of storage prices (`Dict<u32, StoragePrices>`). -/
def prices : DictType Nat StoragePrices := ⟨Key.u32, storagePrices.store, storagePrices.load⟩

/-- A loop of `dict.set(key, value)`. -/
def setEach {κ β : Type} (T : DictType κ β) (acc : Cell → Bool) : List (κ × β) → Option Cell → Except Err (Option Cell)
  | [], d => .ok d
  | (k, v) :: l, d => match T.insert acc d k v .set with
    | (.error e, _) => .error e
    | (.ok _, d') => setEach T acc l d'

/-- A loop that fills a new dictionary, then `set_raw` of the parameter with it. -/
def setBuilt {κ β : Type} (T : DictType κ β) (acc : Cell → Bool) (p : Known (Option Cell)) (d : Option Cell) (l : List (κ × β)) : DictRes Bool :=
  match setEach T acc l none with
  | .error e => (.error e, d)
  | .ok r => set acc p d r

/-- `models/config/mod.rs:153-162`, `174-183` `set_mandatory_params`, `set_critical_params` -/
def setMandatory (acc : Cell → Bool) (d : Option Cell) (ids : List Nat) : DictRes Bool := setBuilt numbers acc (p9 acc) d (ids.map fun i => (i, ()))
@[inherit_doc setMandatory] def setCritical (acc : Cell → Bool) (d : Option Cell) (ids : List Nat) : DictRes Bool := setBuilt numbers acc (p10 acc) d (ids.map fun i => (i, ()))
/-- `models/config/mod.rs:453-459` `set_fundamental_addresses` -/
def setFundamental (acc : Cell → Bool) (d : Option Cell) (l : List (List Byte)) : DictRes Bool := setBuilt addresses acc p31 d (l.map fun a => (a, ()))
/-- `models/config/mod.rs:289-298` `set_storage_prices`; the positions are cut to 32 bits. -/
def setStoragePrices (acc : Cell → Bool) (d : Option Cell) (l : List StoragePrices) : DictRes Bool :=
  setBuilt prices acc (p18 acc) d (l.zipIdx.map fun q => (q.2 % 2 ^ 32, q.1))

/-- `models/config/mod.rs:28-36` `BlockchainConfig::new_empty`; both `unwrap`s may panic. -/
def newEmpty (acc : Cell → Bool) (address : List Byte) : Except Err BlockchainConfig :=
  match set acc p0 none address with
  | (.error _, _) => .error .panic
  | (.ok _, d) => .ok ⟨address, d⟩

end Config
end Verif
