/-!
# Global capabilities

A set of capabilities is a `u64`; every capability is one of its bits. Bits without a capability may be set.

Simplifications: a `u64` is a natural number below `2 ^ 64`; a human-readable form is the list of the strings it holds.
-/
set_option linter.unusedVariables false
namespace Verif

/-- `GlobalCapability` (`models/global_version.rs:50-212`) -/
inductive Cap
  | ihrEnabled
  | createStatsEnabled
  | bounceMsgBody
  | reportVersion
  | splitMergeTransactions
  | shortDequeue
  | mbppEnabled
  | fastStorageStat
  | initCodeHash
  | offHypercube
  | myCode
  | setLibCode
  | fixTupleIndexBug
  | remp
  | delections
  | fullBodyInBounced
  | storageFeeToTvm
  | copyleft
  | indexAccounts
  | diff
  | sTvmBugfixes2022
  | workchains
  | stcontNewFormat
  | fastStorageStatBugfix
  | resolveMerkleCell
  | signatureWithId
  | bounceAfterFailedAction
  | groth16
  | feeInGasUnits
  | bigCells
  | suspendedList
  | fastFinality
  deriving DecidableEq

namespace Cap

/-- All capabilities, by bit. -/
def all : List Cap := [.ihrEnabled, .createStatsEnabled, .bounceMsgBody, .reportVersion, .splitMergeTransactions, .shortDequeue, .mbppEnabled, .fastStorageStat, .initCodeHash, .offHypercube, .myCode, .setLibCode, .fixTupleIndexBug, .remp, .delections, .fullBodyInBounced, .storageFeeToTvm, .copyleft, .indexAccounts, .diff, .sTvmBugfixes2022, .workchains, .stcontNewFormat, .fastStorageStatBugfix, .resolveMerkleCell, .signatureWithId, .bounceAfterFailedAction, .groth16, .feeInGasUnits, .bigCells, .suspendedList, .fastFinality]

/-- The offsets in the declaration. -/
def bit : Cap → Nat
  | .ihrEnabled => 0
  | .createStatsEnabled => 1
  | .bounceMsgBody => 2
  | .reportVersion => 3
  | .splitMergeTransactions => 4
  | .shortDequeue => 5
  | .mbppEnabled => 6
  | .fastStorageStat => 7
  | .initCodeHash => 8
  | .offHypercube => 9
  | .myCode => 10
  | .setLibCode => 11
  | .fixTupleIndexBug => 12
  | .remp => 13
  | .delections => 14
  | .fullBodyInBounced => 16
  | .storageFeeToTvm => 17
  | .copyleft => 18
  | .indexAccounts => 19
  | .diff => 20
  | .sTvmBugfixes2022 => 21
  | .workchains => 22
  | .stcontNewFormat => 23
  | .fastStorageStatBugfix => 24
  | .resolveMerkleCell => 25
  | .signatureWithId => 26
  | .bounceAfterFailedAction => 27
  | .groth16 => 28
  | .feeInGasUnits => 29
  | .bigCells => 30
  | .suspendedList => 31
  | .fastFinality => 32

/-- `capability as u64` (`models/global_version.rs:17`) -/
def mask (c : Cap) : Nat := 1 <<< c.bit

/-- `from_bit_offset` (`models/global_version.rs:21-26`) -/
def fromBit : Nat → Option Cap
  | 0 => some .ihrEnabled
  | 1 => some .createStatsEnabled
  | 2 => some .bounceMsgBody
  | 3 => some .reportVersion
  | 4 => some .splitMergeTransactions
  | 5 => some .shortDequeue
  | 6 => some .mbppEnabled
  | 7 => some .fastStorageStat
  | 8 => some .initCodeHash
  | 9 => some .offHypercube
  | 10 => some .myCode
  | 11 => some .setLibCode
  | 12 => some .fixTupleIndexBug
  | 13 => some .remp
  | 14 => some .delections
  | 16 => some .fullBodyInBounced
  | 17 => some .storageFeeToTvm
  | 18 => some .copyleft
  | 19 => some .indexAccounts
  | 20 => some .diff
  | 21 => some .sTvmBugfixes2022
  | 22 => some .workchains
  | 23 => some .stcontNewFormat
  | 24 => some .fastStorageStatBugfix
  | 25 => some .resolveMerkleCell
  | 26 => some .signatureWithId
  | 27 => some .bounceAfterFailedAction
  | 28 => some .groth16
  | 29 => some .feeInGasUnits
  | 30 => some .bigCells
  | 31 => some .suspendedList
  | 32 => some .fastFinality
  | _ => none

/-- `Display` (`models/global_version.rs:29-35`); `serde` writes the same names. -/
def text : Cap → String
  | .ihrEnabled => "CapIhrEnabled"
  | .createStatsEnabled => "CapCreateStatsEnabled"
  | .bounceMsgBody => "CapBounceMsgBody"
  | .reportVersion => "CapReportVersion"
  | .splitMergeTransactions => "CapSplitMergeTransactions"
  | .shortDequeue => "CapShortDequeue"
  | .mbppEnabled => "CapMbppEnabled"
  | .fastStorageStat => "CapFastStorageStat"
  | .initCodeHash => "CapInitCodeHash"
  | .offHypercube => "CapOffHypercube"
  | .myCode => "CapMyCode"
  | .setLibCode => "CapSetLibCode"
  | .fixTupleIndexBug => "CapFixTupleIndexBug"
  | .remp => "CapRemp"
  | .delections => "CapDelections"
  | .fullBodyInBounced => "CapFullBodyInBounced"
  | .storageFeeToTvm => "CapStorageFeeToTvm"
  | .copyleft => "CapCopyleft"
  | .indexAccounts => "CapIndexAccounts"
  | .diff => "CapDiff"
  | .sTvmBugfixes2022 => "CapsTvmBugfixes2022"
  | .workchains => "CapWorkchains"
  | .stcontNewFormat => "CapStcontNewFormat"
  | .fastStorageStatBugfix => "CapFastStorageStatBugfix"
  | .resolveMerkleCell => "CapResolveMerkleCell"
  | .signatureWithId => "CapSignatureWithId"
  | .bounceAfterFailedAction => "CapBounceAfterFailedAction"
  | .groth16 => "CapGroth16"
  | .feeInGasUnits => "CapFeeInGasUnits"
  | .bigCells => "CapBigCells"
  | .suspendedList => "CapSuspendedList"
  | .fastFinality => "CapFastFinality"

/-- `FromStr` (`models/global_version.rs:37-46`) -/
def parse (s : String) : Option Cap := all.find? fun c => s == c.text

end Cap

/-- `GlobalCapabilities` (`models/global_version.rs:296-300`) -/
structure Caps where
  raw : Nat

namespace Caps

/-- `!x` of a `u64` -/
def not64 (x : Nat) : Nat := 2 ^ 64 - 1 - x

/-- `u64::trailing_zeros` -/
def trailing (x : Nat) : Nat := ((List.range 64).find? fun i => x.testBit i).getD 64

/-- `u64::count_ones` -/
def ones (x : Nat) : Nat := ((List.range 64).filter fun i => x.testBit i).length

/-- `new`, `into_inner` (`models/global_version.rs:304-306`, 327-329) -/
def new (x : Nat) : Caps := ⟨x⟩

/-- `is_empty` (`models/global_version.rs:310-312`) -/
def isEmpty (s : Caps) : Bool := s.raw == 0

/-- `len` (`models/global_version.rs:315-317`), also `size_hint` of the iterator (474-477) -/
def len (s : Caps) : Nat := ones s.raw

/-- `contains` (`models/global_version.rs:321-323`) -/
def contains (s : Caps) (c : Cap) : Bool := s.raw &&& c.mask != 0

/-- `|`, `|=` (`models/global_version.rs:214-285`) -/
def add (s : Caps) (c : Cap) : Caps := ⟨s.raw ||| c.mask⟩

/-- `FromIterator`, `From<[GlobalCapability; N]>` (`models/global_version.rs:366-384`) -/
def collect (l : List Cap) : Caps := l.foldl add ⟨0⟩

/-- One turn of the loop in `next`: the lowest bit, and the rest (`models/global_version.rs:457-464`). -/
def lowest (x : Nat) : Nat := x &&& not64 (x - 1)
def rest (x : Nat) : Nat := x &&& not64 (lowest x)

/-- `next` (`models/global_version.rs:455-472`). Every turn clears a bit: 64 turns are enough. -/
def nextGo : Nat → Nat → Option Cap × Nat
  | 0, x => (none, x)
  | fuel + 1, x =>
    if x = 0 then (none, x) else match Cap.fromBit (trailing (lowest x)) with
      | some c => (some c, rest x)
      | none => nextGo fuel (rest x)

def next (x : Nat) : Option Cap × Nat := nextGo 65 x

/-- All items of the iterator. -/
def itemsGo : Nat → Nat → List Cap
  | 0, _ => []
  | fuel + 1, x => match next x with
    | (none, _) => []
    | (some c, y) => c :: itemsGo fuel y

def items (s : Caps) : List Cap := itemsGo 65 s.raw

/-- The human-readable form (`models/global_version.rs:393-405`). -/
def toTexts (s : Caps) : List String := s.items.map Cap.text

/-- Reading the human-readable form (`models/global_version.rs:429-438`). -/
def ofTexts : List String → Caps → Option Caps
  | [], s => some s
  | t :: r, s => match Cap.parse t with
    | none => none
    | some c => ofTexts r (s.add c)

end Caps
end Verif
