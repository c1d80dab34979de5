import Verif.ArbitraryMoney
import Verif.ArbitraryProps
import Verif.OutActions

/-! Random output actions (the `Arbitrary` implementations of `models/vm/out_actions.rs`). -/

set_option linter.unusedVariables false

namespace Verif.Arb
open Verif

/-! ### Model -/

/-- The check `level() != 0`, which refuses the input. -/
def closedCell (c : CCell) : Gen Cell := if c.desc.levelMask.level ≠ 0 then stop .refused else pure c.tree

/-- `models/vm/out_actions.rs:186-199` `LibRef` -/
def libRef (H : Hasher) (f : Nat) : Gen LibRef := do
  let h ← intIn 0 1
  if h = 1 then do
    let d ← array 32
    pure (.hash d)
  else do
    let c ← ordCell H f
    let t ← closedCell c
    pure (.cell t)

/-- `models/vm/out_actions.rs:321-362` `OutAction`. Simplification: the generator of messages (`Lazy<OwnedRelaxedMessage>`) is a parameter; the
second check of the level of a library, which `LibRef` has made already, is left out. The flags are any byte
(`:83-87`, `:128-132`, `:167-171`, `from_bits_retain`). -/
def action (H : Hasher) (acc : Cell → Bool) (f : Nat) (msg : Nat → Gen CCell) : Gen OutAction := do
  let kind ← intIn 0 3
  if kind = 0 then do
    let mode ← intIn 0 255
    let m ← msg f
    let t ← closedCell m
    pure (.sendMsg ⟨mode, t⟩)
  else if kind = 1 then do
    let c ← cell H f
    let t ← closedCell c
    pure (.setCode t)
  else if kind = 2 then do
    let mode ← intIn 0 255
    let v ← currency acc
    pure (.reserve ⟨mode, v⟩)
  else do
    let mode ← intIn 0 255
    let l ← libRef H f
    pure (.changeLib ⟨mode, l⟩)

/-! ### Specification -/

/-- A library by its hash, or a tree without exotic cells. -/
def AnyLib (H : Hasher) : LibRef → Prop
  | .hash d => d.length = 32
  | .cell c => Plain c ∧ c.WF H

/-- The actions that can come out: one byte of flags, cells of level 0, and amounts in range. -/
def AnyAction (H : Hasher) (acc : Cell → Bool) : OutAction → Prop
  | .sendMsg v => v.mode < 256 ∧ v.outMsg.WF H ∧ (v.outMsg.info H).mask = 0
  | .setCode c => c.WF H ∧ (c.info H).mask = 0
  | .reserve v => v.mode < 256 ∧ v.value.tokens < 2 ^ 120 ∧ Purse acc 127 v.value.other
  | .changeLib v => v.mode < 256 ∧ AnyLib H v.lib

/-! ### Lemmas -/

theorem safe_closed {H : Hasher} {n : Nat} {c : CCell} (hc : Built H c) : Safe n (closedCell c) (fun t => t = c.tree ∧ t.WF H ∧ (t.info H).mask = 0) := by
  unfold closedCell
  by_cases h : c.desc.levelMask.level ≠ 0
  · rw [if_pos h]; exact Safe.refused
  · rw [if_neg h]
    have h : c.desc.levelMask.level = 0 := Decidable.not_not.mp h
    refine Safe.pure ⟨rfl, hc.facts.wf, ?_⟩
    rw [← hc.facts.agrees.mask]
    have hlt : c.desc.levelMask.toNat < 8 := by
      show (c.desc.d1 >>> 5).toNat < 8
      have := c.desc.d1.isLt
      rw [BitVec.toNat_ushiftRight, Nat.shiftRight_eq_div_pow]
      omega
    exact (LevelMask.all_lt (P := fun m => m.level = 0 ↔ m = 0) (by decide +kernel) hlt).mp h

theorem safe_currency {acc : Cell → Bool} (hacc : AcceptsTame acc) {n : Nat} : Safe n (currency acc) (fun c => c.tokens < 2 ^ 120 ∧ Purse acc 127 c.other) :=
  (total_currency hacc).safe n

theorem safe_libRef {H : Hasher} {n f : Nat} (hf : n < f) : Safe n (libRef H f) (AnyLib H) := by
  unfold libRef
  refine (safe_intIn (by decide)).bind fun h _ => ?_
  by_cases hh : h = 1
  · rw [if_pos hh]
    exact (safe_array 32).bind fun d hd => Safe.pure hd
  · rw [if_neg hh]
    refine (safe_ordCell (H := H) (T := Plain) (fun _ _ h => ⟨rfl, plain_list h⟩) hf).bind fun c hc => ?_
    exact (safe_closed hc.1).bind fun t ht => Safe.pure ⟨by rw [ht.1]; exact hc.2, ht.2.1⟩

theorem safe_action {H : Hasher} {acc : Cell → Bool} (hacc : AcceptsTame acc) {n f : Nat} (hf : n < f) {msg : Nat → Gen CCell} (hmsg : Safe n (msg f) (Built H)) :
    Safe n (action H acc f msg) (AnyAction H acc) := by
  unfold action
  have byte : Safe n (intIn 0 255) (fun m => m < 256) := (safe_intIn (by decide)).weaken fun m hm => by omega
  refine (safe_intIn (by decide)).bind fun kind _ => ?_
  by_cases h0 : kind = 0
  · rw [if_pos h0]
    exact byte.bind fun m hm => hmsg.bind fun c hc => (safe_closed hc).bind fun t ht => Safe.pure ⟨hm, ht.2⟩
  · rw [if_neg h0]
    by_cases h1 : kind = 1
    · rw [if_pos h1]
      exact (safe_cell (closed_sound H) hf).bind fun c hc => (safe_closed hc.1).bind fun t ht => Safe.pure ht.2
    · rw [if_neg h1]
      by_cases h2 : kind = 2
      · rw [if_pos h2]
        exact byte.bind fun m hm => (safe_currency hacc).bind fun c hc => Safe.pure ⟨hm, hc⟩
      · rw [if_neg h2]
        exact byte.bind fun m hm => (safe_libRef hf).bind fun l hl => Safe.pure ⟨hm, hl⟩

theorem libRef_run {H : Hasher} {l : LibRef} (h : AnyLib H l) : ∃ s : Src, ∀ f, s.length < f → ∀ rest, libRef H f (s ++ rest) = .ok (l, rest) := by
  cases l with
  | hash d =>
    have h : d.length = 32 := h
    refine ⟨1 :: d.map (·.toNat), fun f _ rest => ?_⟩
    show (intIn 0 1 >>= _) (1 :: (d.map (·.toNat) ++ rest)) = _
    rw [run_bind (intIn_run0 (by decide) _), if_pos rfl, ← h, run_bind (array_run d rest)]
    rfl
  | cell t =>
    obtain ⟨s, hs⟩ := makes_cell t h.1 h.2
    refine ⟨0 :: s, fun f hf rest => ?_⟩
    obtain ⟨c, e1, hb, e2⟩ := hs f (by rw [List.length_cons] at hf; omega) rest
    show (intIn 0 1 >>= _) (0 :: (s ++ rest)) = _
    rw [run_bind (intIn_run0 (by decide) _), if_neg (by decide), run_bind e1]
    have hm : c.desc.levelMask = 0 := by rw [hb.facts.agrees.mask]; exact plain_mask _ (by rw [e2]; exact h.1)
    have : closedCell c rest = .ok (t, rest) := by
      unfold closedCell
      rw [hm, if_neg (by decide), e2]
      rfl
    rw [run_bind this]
    rfl

/-! ### Property theorems -/

/-- C99: whatever the input, `OutAction::arbitrary` ends without a panic (if the generator of messages does): it refuses the input or gives an action
with a byte of flags, whose cells are well-formed trees of level 0 and whose amounts are in range. -/
theorem C99_actions (H : Hasher) {acc : Cell → Bool} (hacc : AcceptsTame acc) {msg : Nat → Gen CCell} (hmsg : ∀ n f, n < f → Safe n (msg f) (Built H)) (s : Src) :
    match action H acc (s.length + 1) msg s with
    | .ok (a, s') => s'.length ≤ s.length ∧ AnyAction H acc a
    | .error e => e = .refused := by
  have h := safe_action hacc (Nat.lt_succ_self s.length) (hmsg s.length _ (Nat.lt_succ_self _)) s (Nat.le_refl _)
  revert h
  cases action H acc (s.length + 1) msg s with
  | error e => exact id
  | ok p => exact id

/-- C99: every change of libraries with a byte of flags, every reservation and every message mode comes from some input. In particular (finding) so do
the changes of libraries with flags of 128 and above, which lose their highest bit when they are stored (`C63_mode_lost`): these are not in the range of
the codec. -/
theorem C99_action_range (H : Hasher) {acc : Cell → Bool} (hacc : AcceptsTame acc) (msg : Nat → Gen CCell) :
    (∀ v : ChangeLib, v.mode < 256 → AnyLib H v.lib → ∃ s, action H acc (s.length + 1) msg s = .ok (.changeLib v, [])) ∧
    (∀ v : Reserve, v.mode < 256 → v.value.tokens < 2 ^ 120 → Purse acc 127 v.value.other → ∃ s, action H acc (s.length + 1) msg s = .ok (.reserve v, [])) ∧
    ∃ s a, action H acc (s.length + 1) msg s = .ok (a, []) ∧ AnyAction H acc a ∧ ¬ outAction.ok a := by
  have hlib : ∀ v : ChangeLib, v.mode < 256 → AnyLib H v.lib → ∃ s, action H acc (s.length + 1) msg s = .ok (.changeLib v, []) := by
    intro v hm hl
    obtain ⟨s, hs⟩ := libRef_run hl
    refine ⟨3 :: v.mode :: s, ?_⟩
    unfold action
    have e := hs ((3 :: v.mode :: s).length + 1) (by simp only [List.length_cons]; omega) []
    rw [List.append_nil] at e
    rw [run_bind (intIn_run0 (by decide) _), if_neg (by decide), if_neg (by decide), if_neg (by decide), run_bind (intIn_run0 (show v.mode ≤ 255 by omega) _), run_bind e]
    rfl
  refine ⟨hlib, fun v hm h1 h2 => ?_, ?_⟩
  · obtain ⟨s, hs⟩ := (C99_currency hacc).2 v.value h1 h2
    refine ⟨2 :: v.mode :: s, ?_⟩
    unfold action
    rw [run_bind (intIn_run0 (by decide) _), if_neg (by decide), if_neg (by decide), if_pos rfl, run_bind (intIn_run0 (show v.mode ≤ 255 by omega) _), run_bind hs]
    rfl
  · have hl : AnyLib H (.hash (List.replicate 32 0)) := by show (List.replicate 32 (0 : Byte)).length = 32; simp
    obtain ⟨s, hs⟩ := hlib ⟨128, .hash (List.replicate 32 0)⟩ (by decide) hl
    refine ⟨s, _, hs, ⟨by decide, hl⟩, fun h => ?_⟩
    have h : (128 : Nat) < 128 := h.1
    omega

/-! ### Non-vacuity -/

/-- A generator of messages as `C99_actions` asks for: any cell at all. -/
example (H : Hasher) : ∀ n f, n < f → Safe n (cell H f) (Built H) := fun n f h => (safe_cell (closed_sound H) h).weaken fun _ hc => hc.1

/-- One input of each kind; the messages are random cells. The code of the fourth is a pruned branch, which is refused. -/
example : ([[0, 3, 0, 8, 0, 0x55], [2, 18, 5, 0], [3, 0x92, 0, 0, 4, 0, 0x50], [1, 1, 0] ++ List.replicate 32 7 ++ [9]].map fun s =>
    match action toyHasher (fun _ => true) 50 (cell toyHasher) s with
    | .ok (.sendMsg v, []) => v.mode
    | .ok (.reserve v, []) => 1000 + v.mode
    | .ok (.changeLib v, []) => 2000 + v.mode
    | .ok _ => 3000
    | .error .refused => 4000
    | .error _ => 5000) = [3, 1018, 2146, 4000] := by decide +kernel

end Verif.Arb
