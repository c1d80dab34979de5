import Verif.EnvelopeProps
/-
C62: what an intermediate address says about the next hop.
-/
set_option linter.unusedVariables false
set_option linter.unusedSimpArgs false
namespace Verif

/-! ### Model -/

/-- `models/message/envelope.rs:39-45` `workchain` -/
def InterAddr.workchain : InterAddr → Option Int
  | .regular _ => none
  | .simple a => some a.workchain
  | .ext a => some a.workchain

/-- `models/message/envelope.rs:49-55` `address_prefix` -/
def InterAddr.addressPrefix : InterAddr → Option Nat
  | .regular _ => none
  | .simple a => some a.addressPrefix
  | .ext a => some a.addressPrefix

/-- `models/message/envelope.rs:23-35` `FULL_DEST_SAME_WORKCHAIN`, `FULL_SRC_SAME_WORKCHAIN`, `FULL_MASTERCHAIN` -/
def InterAddr.fullDest : InterAddr := .regular 96
@[inherit_doc InterAddr.fullDest] def InterAddr.fullSrc : InterAddr := .regular 0
@[inherit_doc InterAddr.fullDest] def InterAddr.fullMasterchain : InterAddr := .simple ⟨-1, 1 <<< 63⟩

/-! ### Specification -/

/-- The forms of an intermediate address, and the workchain and prefix they name: a number of bits up to 96 without them (`$0`), a workchain of 8 bits
(`$10`) or of 32 bits (`$11`) before the 64 bits of the prefix. -/
def NextHop (bits : Bits) (workchain : Option Int) (pfx : Option Nat) : Prop :=
  (workchain = none ∧ pfx = none ∧ ∃ n, n ≤ 96 ∧ bits = [false] ++ natBits 8 n) ∨
  ∃ w x, workchain = some w ∧ pfx = some x ∧ x < 2 ^ 64 ∧
    ((IsI8 w ∧ bits = [true, false] ++ (natBits 8 (i8ToU8 w) ++ natBits 64 x)) ∨ (IsI32 w ∧ bits = [true, true] ++ (natBits 32 (i32ToU32 w) ++ natBits 64 x)))

/-! ### Properties -/

/-- **C62, next hop.** The workchain and the prefix of every address that can be loaded are those in its bits, and either both are named or none. -/
theorem C62_next_hop {s s' : CSlice Cell} {a : InterAddr} (w : s.WF) (h : interAddr.load s = (.ok a, s')) :
    ∃ bits, NextHop bits a.workchain a.addressPrefix ∧ s.contents = (bits ++ s'.contents.1, s'.contents.2) := by
  obtain ⟨e, hR, he⟩ := interAddr_sound.ld.exact _ _ _ w h
  cases a with
  | regular n =>
    obtain ⟨e1, e2, h1, ⟨⟨h2, h2'⟩, h3⟩, rfl⟩ := hR
    cases h1; cases h2'
    exact ⟨_, Or.inl ⟨rfl, rfl, n, of_decide_eq_true h3, rfl⟩, he.1⟩
  | simple a =>
    obtain ⟨e1, e2, h1, ⟨e3, e4, ⟨h2, h2'⟩, ⟨h3, h3'⟩, rfl⟩, rfl⟩ := hR
    cases h1; cases h2'; cases h3'
    exact ⟨_, Or.inr ⟨_, _, rfl, rfl, h3, Or.inl ⟨h2, rfl⟩⟩, he.1⟩
  | ext a =>
    obtain ⟨e1, e2, h1, ⟨e3, e4, ⟨h2, h2'⟩, ⟨h3, h3'⟩, rfl⟩, rfl⟩ := hR
    cases h1; cases h2'; cases h3'
    exact ⟨_, Or.inr ⟨_, _, rfl, rfl, h3, Or.inr ⟨h2, rfl⟩⟩, he.1⟩

-- an address that is stored and loaded again: the masterchain
example : ∃ (s s' : CSlice Cell), s.WF ∧ interAddr.load s = (.ok .fullMasterchain, s') := by
  have hok : interAddr.ok .fullMasterchain := by constructor <;> tlb_ok
  obtain ⟨w, ct⟩ := Tlb.reader_contents (b := (interAddr.enc .fullMasterchain).1) (r := []) (by decide +kernel)
  obtain ⟨s', h1, _⟩ := interAddr_sound.ld.reads _ _ (interAddr_sound.st.canon _ hok) _ ([], []) w (by rw [ct]; rfl)
  exact ⟨_, s', w, h1⟩

/-- **C62, the constants.** The three addresses of the library can be stored; the first two name no workchain and are the whole destination and the whole
source, the third is the masterchain with the prefix of the shard that covers it all. -/
theorem C62_hop_constants :
    interAddr.ok .fullDest ∧ interAddr.ok .fullSrc ∧ interAddr.ok .fullMasterchain ∧
    InterAddr.fullDest.workchain = none ∧ InterAddr.fullSrc.workchain = none ∧
    (∃ n, InterAddr.fullDest = .regular n ∧ n = 96 ∧ useSrcBits n = .ok 0) ∧ (∃ n, InterAddr.fullSrc = .regular n ∧ n = 0 ∧ useSrcBits n = .ok 96) ∧
    InterAddr.fullMasterchain.workchain = some (-1) ∧ InterAddr.fullMasterchain.addressPrefix = some 0x8000000000000000 := by
  refine ⟨?_, ?_, ?_, rfl, rfl, ⟨_, rfl, rfl, rfl⟩, ⟨_, rfl, rfl, rfl⟩, rfl, by decide +kernel⟩
  · constructor <;> tlb_ok
  · constructor <;> tlb_ok
  · constructor <;> tlb_ok

/-- **C62, two forms.** A basic workchain has two addresses with the same workchain and prefix, which are different values with different bits: comparing
addresses does not compare hops. -/
theorem C62_two_forms (w : Int) (x : Nat) : let a := InterAddr.simple ⟨w, x⟩; let b := InterAddr.ext ⟨w, x⟩
    a.workchain = b.workchain ∧ a.addressPrefix = b.addressPrefix ∧ a ≠ b ∧ (interAddr.enc a).1.length = 74 ∧ (interAddr.enc b).1.length = 98 := by
  refine ⟨rfl, rfl, (nomatch ·), ?_, ?_⟩
  · simp [interAddr, simpleAddr, Tlb.i8, Tlb.u64, Tlb.canonical, Enc.bits]
  · simp [interAddr, wideAddr, Tlb.i32, Tlb.u64, Tlb.canonical, Enc.bits]

end Verif
