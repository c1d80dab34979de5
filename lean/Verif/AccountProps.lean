import Verif.Account
/-
C60: accounts are stored and loaded by their TL-B schemes; what is computed about them.
-/
set_option linter.unusedVariables false
set_option linter.unusedSimpArgs false
namespace Verif

/-- C60: the stores and loads of all account types agree with their grammar: every value that can be stored is written in exactly its
TL-B form (or `CellOverflow` if and only if there is no room), is loaded from it whatever follows, and nothing but an encoding of the
grammar is ever accepted. -/
theorem C60_codecs : account.Sound ∧ optionalAccount.Sound ∧ shardAccount.Sound ∧ stateInit.Sound ∧ accountState.Sound ∧ storageInfo.Sound ∧
    storageUsed.Sound ∧ storageExtra.Sound ∧ accountStatus.Sound ∧ specialFlags.Sound ∧ simpleLib.Sound :=
  ⟨account_sound, account_sound.opt, shardAccount_sound, stateInit_sound, accountState_sound, storageInfo_sound, storageUsed_sound, storageExtra_sound,
    accountStatus_sound, specialFlags_sound, simpleLib_sound⟩

/-- C60: the account states are told apart by their first bits, and the status of a state is the one that the bits say:
`00` uninit, `1…` active, `01…` frozen. -/
theorem C60_status {s s' : CSlice Cell} {v : AccountState} (hs : s.WF) (h : accountState.load s = (.ok v, s')) :
    (v.status = .uninit ↔ s.bits.take 2 = [false, false]) ∧ (v.status = .frozen ↔ s.bits.take 2 = [false, true]) ∧
    (v.status = .active ↔ s.bits.take 1 = [true]) := by
  obtain ⟨e, hr, hc, _⟩ := accountState_sound.ld.exact s s' v hs h
  have hb : s.bits = e.1 ++ s'.contents.1 := congrArg Prod.fst hc
  rw [hb]
  cases v with
  | uninit => cases hr; simp [AccountState.status, Enc.bits]
  | active a => obtain ⟨_, e2, rfl, _, rfl⟩ := hr; simp [AccountState.status, Enc.bits]
  | frozen a => obtain ⟨_, e2, rfl, _, rfl⟩ := hr; simp [AccountState.status, Enc.bits]

/-- C60: the status of an optional account that was read: it does not exist exactly when the first bit is zero, and
otherwise its status is that of its state. -/
theorem C60_optional_status {s s' : CSlice Cell} {v : Option Account} (hs : s.WF) (h : optionalAccount.load s = (.ok v, s')) :
    (optionalStatus v = .notExists ↔ s.bits.take 1 = [false]) ∧ (∀ a, v = some a → optionalStatus v = a.state.status) := by
  obtain ⟨e, hr, hc, _⟩ := (account_sound.opt).ld.exact s s' v hs h
  have hb : s.bits = e.1 ++ s'.contents.1 := congrArg Prod.fst hc
  rw [hb]
  cases v with
  | none => cases hr; simp [optionalStatus, Enc.bits]
  | some a =>
    obtain ⟨_, e2, rfl, _, rfl⟩ := hr
    refine ⟨?_, fun a ha => by cases ha; rfl⟩
    simp only [optionalStatus]
    cases a.state <;> simp [AccountState.status, Enc.bits]

/-- C60: the size that a `StateInit` reports is the size of what is stored. -/
theorem C60_size {a : StateInit} (h : stateInit.ok a) {b : CellB Cell} (hb : stateInit.store a .new = (.ok (), b)) :
    b.contents.1.length = a.bitLen ∧ b.contents.2.length = a.refCount := by
  have hs := stateInit_size h
  have hw := stateInit_sound.st.writes a h .new CellB.wf_new
  by_cases hf : ((CellB.new : CellB Cell).contents ++ stateInit.enc a : Enc Cell).Fits
  · obtain ⟨b', r, _, c, _⟩ := hw.1 hf
    rw [hb] at r
    obtain ⟨_, rfl⟩ := Prod.mk.inj r
    rw [c]
    exact hs
  · obtain ⟨b', r, _⟩ := hw.2 hf
    rw [hb] at r; cases r

/-- C60: an account put into a shard account is found there: `Lazy::new` of the account, stored in a `ShardAccount`, loaded and
parsed, gives the account back. -/
theorem C60_shard_account {acc : Cell → Bool} {a : Option Account} (ha : optionalAccount.ok a) {c : Cell} (hc : Tlb.lazyNew acc optionalAccount a = .ok c)
    {h : List Byte} (hh : h.length = 32) {lt : Nat} (hl : lt < 2 ^ 64) {b : CellB Cell} (hb : shardAccount.store ⟨c, h, lt⟩ .new = (.ok (), b)) :
    ∃ s, shardAccount.load b.asSlice = (.ok ⟨c, h, lt⟩, s) ∧ s.contents = Enc.nil ∧ Tlb.lazyLoad optionalAccount c = .ok a := by
  obtain ⟨e, hl'⟩ := account_sound.opt.lazy_round ha hc
  obtain ⟨s, q, n⟩ := shardAccount_sound.round (v := ⟨c, h, lt⟩) ⟨by rw [e]; rfl, hh, hl⟩ hb
  exact ⟨s, q, n, hl'⟩

open Stat in
/-- C60, a defect: `StorageUsed::compute` fails with `IntOverflow` for every cell whose number of cells is in range - that is, always
(the condition `cells.is_valid() || !bits.is_valid()` lacks a negation). -/
theorem C60_used_broken {H : Hasher} {c : CCell} (hc : Built H c) {limit : Nat} {D : List Cell} (hD : Distinct [c] D) (hl : D.length < 2 ^ 56) :
    Boc.Clash H [c] ∨ StorageUsed.ofStats (computeForCell c limit) =
      if D.length ≤ max limit 1 then .error .intOverflow else .error .cancelled := by
  rcases C40_cell hc limit hD with h | h
  · exact Or.inl h
  right
  rw [h]
  by_cases hk : D.length ≤ max limit 1
  · rw [if_pos hk, if_pos hk]
    have hv : VarKind.vu56.isValid D.length = true := by
      unfold VarKind.isValid
      apply decide_eq_true
      have : VarKind.vu56.max = 2 ^ 56 - 1 := by decide
      omega
    show StorageUsed.ofStats (some (bitSum D, D.length)) = _
    unfold StorageUsed.ofStats
    simp only [hv, Bool.true_or, if_true]
  · rw [if_neg hk, if_neg hk]; rfl

/-! ### The hypotheses can be met -/

/-- Closes side conditions on concrete values. -/
macro "tlb_ok" : tactic => `(tactic| first | trivial | decide | (show _ ≤ _; decide) | (show _ < _; decide) | (show _ = _; decide) | (show _ ∧ _; decide))

/-- An active account with code, data, an extra currency root, a due payment and an anycast-free address. -/
def exAccount : Account :=
  ⟨.std ⟨none, -1, List.replicate 32 0xab⟩, ⟨⟨22, 5697⟩, .dictHash (List.replicate 32 1), 1700000000, some 12345⟩, 47244640256,
    ⟨1000000000, some (.mk false [true] [])⟩, .active ⟨some 5, some ⟨true, false⟩, some (.mk false [true, false] []), some (.mk false [] []), none⟩⟩

theorem exAccount_ok : account.ok exAccount := by
  refine ⟨⟨trivial, ?_, ?_⟩, ⟨⟨?_, ?_⟩, ?_, ?_, ?_⟩, ?_, ?_, ⟨?_, trivial, trivial, trivial, trivial⟩⟩ <;> tlb_ok

example : (account.store exAccount .new).1 = .ok () := by decide +kernel
example : ((account.store exAccount .new).2.inner.bits.length, (account.store exAccount .new).2.refs.length) = (723, 3) := by decide +kernel
example : ∃ c, Tlb.lazyNew (fun _ => true) optionalAccount (some exAccount) = .ok c := by
  have h := account_sound.opt.stored (v := some exAccount) exAccount_ok
  rw [if_pos (by decide +kernel)] at h
  exact ⟨_, by unfold Tlb.lazyNew; unfold optionalAccount; rw [h]; rfl⟩
example : ∃ v s, accountState.load (Sl.reader ⟨[false, false], []⟩) = (.ok v, s) := ⟨_, _, rfl⟩
/-- The counts that a real account would have are refused. -/
example : StorageUsed.ofStats (some (5697, 22)) = .error .intOverflow := by decide

end Verif
