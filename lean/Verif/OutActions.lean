import Verif.TlbMore
import Verif.Message
/-
Output actions (`models/vm/out_actions.rs`).
-/
set_option linter.unusedVariables false
set_option linter.unusedSimpArgs false
namespace Verif

/-! ### Model -/

/-- `models/vm/out_actions.rs:210-216` the fields of `OutAction::SendMsg`; the flags are kept as they are (`from_bits_retain`), here `SendMsg` -/
structure SendMsg where
  mode : Nat
  outMsg : Cell

/-- `SendMsg` is written and read as in `models/vm/out_actions.rs:257-261` and `:292-295`. -/
def sendMsg : Tlb SendMsg where
  ok a := Tlb.u8.ok a.mode ∧ (Tlb.lazy false).ok a.outMsg
  store a := Tlb.u8.store a.mode >>= fun _ => (Tlb.lazy false).store a.outMsg
  load :=
    Tlb.u8.load >>= fun mode =>
    (Tlb.lazy false).load >>= fun outMsg =>
    pure ⟨mode, outMsg⟩
  R a := Tlb.u8.R a.mode ⬝ (Tlb.lazy false).R a.outMsg
  enc a := Tlb.u8.enc a.mode ++ ((Tlb.lazy false).enc a.outMsg)

/-- `models/vm/out_actions.rs:223-229` the fields of `OutAction::ReserveCurrency`, here `Reserve` -/
structure Reserve where
  mode : Nat
  value : Currency

/-- `Reserve` is written and read as in `models/vm/out_actions.rs:266-270` and `:299-302`. -/
def reserve : Tlb Reserve where
  ok a := Tlb.u8.ok a.mode ∧ Tlb.currency.ok a.value
  store a := Tlb.u8.store a.mode >>= fun _ => Tlb.currency.store a.value
  load :=
    Tlb.u8.load >>= fun mode =>
    Tlb.currency.load >>= fun value =>
    pure ⟨mode, value⟩
  R a := Tlb.u8.R a.mode ⬝ Tlb.currency.R a.value
  enc a := Tlb.u8.enc a.mode ++ (Tlb.currency.enc a.value)

/-- `models/vm/out_actions.rs:179-184` `LibRef` -/
inductive LibRef where
  | hash (h : List Byte)
  | cell (c : Cell)

/-- `flags & 1` -/
def LibRef.bit : LibRef → Nat
  | .hash _ => 0
  | .cell _ => 1

def LibRef.store : LibRef → Wr Cell Unit
  | .hash h => Wr.u256 h
  | .cell c => Wr.ref c
def LibRef.R : LibRef → Enc Cell → Prop
  | .hash h, e => Tlb.hash.R h e
  | .cell c, e => Tlb.cell.R c e
def LibRef.enc : LibRef → Enc Cell
  | .hash h => Tlb.hash.enc h
  | .cell c => Tlb.cell.enc c
def LibRef.ok : LibRef → Prop
  | .hash h => Tlb.hash.ok h
  | .cell c => Tlb.cell.ok c

/-- `models/vm/out_actions.rs:233-237` the fields of `OutAction::ChangeLibrary` -/
structure ChangeLib where
  mode : Nat
  lib : LibRef

/-- `models/vm/out_actions.rs:271-283` and `:303-313`. The shift is one of `u8`, so that the top bit of the mode is lost: only modes below 128 are `ok`. -/
def changeLib : Tlb ChangeLib where
  ok v := v.mode < 128 ∧ v.lib.ok
  store v := Wr.u8 ((v.mode <<< 1) % 2 ^ 8 ||| v.lib.bit) >>= fun _ => v.lib.store
  load := Rd.u8 >>= fun flags => if flags &&& 1 = 0 then Rd.u256 >>= fun h => pure ⟨flags >>> 1, .hash h⟩ else Rd.ref >>= fun c => pure ⟨flags >>> 1, .cell c⟩
  R v := Enc.Lit (natBits 7 v.mode ++ [decide (v.lib.bit = 1)]) ⬝ fun e => v.mode < 128 ∧ v.lib.R e
  enc v := Enc.bits (natBits 7 v.mode ++ [decide (v.lib.bit = 1)]) ++ v.lib.enc

/-- `models/vm/out_actions.rs:208-237` `OutAction` -/
inductive OutAction where
  | sendMsg (v : SendMsg)
  | setCode (v : Cell)
  | reserve (v : Reserve)
  | changeLib (v : ChangeLib)

/-- `models/vm/out_actions.rs:239-318` the tags, `Store`, `Load` -/
def outAction : Tlb OutAction where
  ok | .sendMsg v => sendMsg.ok v
     | .setCode v => Tlb.cell.ok v
     | .reserve v => reserve.ok v
     | .changeLib v => changeLib.ok v
  store | .sendMsg v => Wr.u32 247711853 >>= fun _ => sendMsg.store v
        | .setCode v => Wr.u32 2907562126 >>= fun _ => Tlb.cell.store v
        | .reserve v => Wr.u32 921090057 >>= fun _ => reserve.store v
        | .changeLib v => Wr.u32 653925844 >>= fun _ => changeLib.store v
  load := Rd.u32 >>= fun t =>
    if t = 247711853 then sendMsg.load >>= fun v => pure (.sendMsg v) else
    if t = 2907562126 then Tlb.cell.load >>= fun v => pure (.setCode v) else
    if t = 921090057 then reserve.load >>= fun v => pure (.reserve v) else
    if t = 653925844 then changeLib.load >>= fun v => pure (.changeLib v) else
    Prog.fail .invalidTag
  R | .sendMsg v => Enc.Lit (natBits 32 247711853) ⬝ sendMsg.R v
    | .setCode v => Enc.Lit (natBits 32 2907562126) ⬝ Tlb.cell.R v
    | .reserve v => Enc.Lit (natBits 32 921090057) ⬝ reserve.R v
    | .changeLib v => Enc.Lit (natBits 32 653925844) ⬝ changeLib.R v
  enc | .sendMsg v => Enc.bits (natBits 32 247711853) ++ sendMsg.enc v
      | .setCode v => Enc.bits (natBits 32 2907562126) ++ Tlb.cell.enc v
      | .reserve v => Enc.bits (natBits 32 921090057) ++ reserve.enc v
      | .changeLib v => Enc.bits (natBits 32 653925844) ++ changeLib.enc v

/-! ### Soundness of the parts -/

theorem sendMsg_sound : (sendMsg).Sound :=
  (Tlb.u8_sound.pair (Tlb.lazy_sound false)).struct (fun p => ⟨p.1, p.2⟩) (fun a => (a.mode, a.outMsg))
    (fun _ => rfl) (fun _ => rfl) (by unfold sendMsg; tlb_more) (fun _ h => h) (fun _ _ => rfl) (fun _ _ => Iff.rfl) (fun _ _ => rfl)

theorem reserve_sound : (reserve).Sound :=
  (Tlb.u8_sound.pair Tlb.currency_sound).struct (fun p => ⟨p.1, p.2⟩) (fun a => (a.mode, a.value))
    (fun _ => rfl) (fun _ => rfl) (by unfold reserve; tlb_more) (fun _ h => h) (fun _ _ => rfl) (fun _ _ => Iff.rfl) (fun _ _ => rfl)

theorem LibRef.bit_lt (l : LibRef) : l.bit < 2 := by cases l <;> simp [LibRef.bit]

theorem flags_bits (m : Nat) (l : LibRef) : natBits 8 (2 * m + l.bit) = natBits 7 m ++ [decide (l.bit = 1)] := by
  have h := natBits_split 7 1 (2 * m + l.bit)
  rw [h]
  have hb := l.bit_lt
  rw [show (2 * m + l.bit) / 2 ^ 1 = m by omega]
  congr 1
  cases l <;> simp [natBits, LibRef.bit, Nat.testBit] <;> omega

theorem flags_or (m : Nat) (l : LibRef) (h : m < 128) : (m <<< 1) % 2 ^ 8 ||| l.bit = 2 * m + l.bit := by
  rw [Nat.shiftLeft_eq, Nat.mod_eq_of_lt (by omega), Nat.mul_comm]
  have := Nat.two_pow_add_eq_or_of_lt (i := 1) (b := l.bit) l.bit_lt m
  rw [show 2 ^ 1 * m = 2 * m from rfl] at this
  exact this.symm

theorem changeLib_sound : changeLib.Sound where
  st := ⟨fun v h => by
      have hb := v.lib.bit_lt
      have e : (v.mode <<< 1) % 2 ^ 8 ||| v.lib.bit = 2 * v.mode + v.lib.bit := flags_or _ _ h.1
      show Writes (Wr.u8 ((v.mode <<< 1) % 2 ^ 8 ||| v.lib.bit) >>= fun _ => v.lib.store) (Enc.bits (natBits 7 v.mode ++ [decide (v.lib.bit = 1)]) ++ v.lib.enc)
      rw [e, ← flags_bits]
      refine (Wr.writes_u8 (by have := h.1; omega)).writes.seq ?_
      obtain ⟨m, l⟩ := v
      cases l with
      | hash x => exact Tlb.hash_sound.st.writes x h.2
      | cell c => exact Tlb.cell_sound.st.writes c h.2,
    fun v h => by
      obtain ⟨m, l⟩ := v
      cases l with
      | hash x => exact ⟨_, _, rfl, ⟨h.1, Tlb.hash_sound.st.canon x h.2⟩, rfl⟩
      | cell c => exact ⟨_, _, rfl, ⟨h.1, Tlb.cell_sound.st.canon c h.2⟩, rfl⟩⟩
  ld := (Loads.switch Tlb.u8_sound.ld (fun v : ChangeLib => (2 * v.mode + v.lib.bit) % 256) (fun v e => v.mode < 128 ∧ v.lib.R e)
      (fun v => Nat.mod_lt _ (by decide))
      (fun t ht => by
        have ht' : t < 256 := ht
        have h1 : t &&& 1 = t % 2 := Nat.and_one_is_mod t
        have h2 : t >>> 1 = t / 2 := by rw [Nat.shiftRight_eq_div_pow]
        by_cases h0 : t &&& 1 = 0
        · rw [if_pos h0]
          refine (Tlb.hash_sound.ld.map fun h => (⟨t >>> 1, .hash h⟩ : ChangeLib)).iff fun v e => ?_
          constructor
          · rintro ⟨a, rfl, hr⟩
            have : t >>> 1 < 128 := by omega
            exact ⟨by show (2 * (t >>> 1) + 0) % 256 = t; omega, this, hr⟩
          · rintro ⟨h3, h4, hr⟩
            obtain ⟨m, l⟩ := v
            cases l with
            | hash x =>
              have h3 : (2 * m + 0) % 256 = t := h3
              have h4 : m < 128 := h4
              exact ⟨x, by rw [show t >>> 1 = m by omega], hr⟩
            | cell c =>
              have h3 : (2 * m + 1) % 256 = t := h3
              have h4 : m < 128 := h4
              omega
        · rw [if_neg h0]
          refine (Tlb.cell_sound.ld.map fun c => (⟨t >>> 1, .cell c⟩ : ChangeLib)).iff fun v e => ?_
          constructor
          · rintro ⟨a, rfl, hr⟩
            have : t >>> 1 < 128 := by omega
            exact ⟨by show (2 * (t >>> 1) + 1) % 256 = t; omega, this, hr⟩
          · rintro ⟨h3, h4, hr⟩
            obtain ⟨m, l⟩ := v
            cases l with
            | cell c =>
              have h3 : (2 * m + 1) % 256 = t := h3
              have h4 : m < 128 := h4
              exact ⟨c, by rw [show t >>> 1 = m by omega], hr⟩
            | hash x =>
              have h3 : (2 * m + 0) % 256 = t := h3
              have h4 : m < 128 := h4
              omega)).iff fun v e => by
    constructor
    · rintro ⟨_, e2, rfl, ⟨h1, h2⟩, rfl⟩
      refine ⟨_, e2, rfl, ⟨h1, h2⟩, ?_⟩
      have hb := v.lib.bit_lt
      rw [Nat.mod_eq_of_lt (by omega), flags_bits]
    · rintro ⟨_, e2, rfl, ⟨h1, h2⟩, rfl⟩
      refine ⟨_, e2, rfl, ⟨h1, h2⟩, ?_⟩
      have hb := v.lib.bit_lt
      rw [Nat.mod_eq_of_lt (by omega), flags_bits]

theorem outAction_sound : (outAction).Sound where
  st := ⟨fun v h => by
      cases v with
      | sendMsg v => exact (Wr.writes_u32 (v := 247711853) (by decide)).writes.seq (sendMsg_sound.st.writes v h)
      | setCode v => exact (Wr.writes_u32 (v := 2907562126) (by decide)).writes.seq (Tlb.cell_sound.st.writes v h)
      | reserve v => exact (Wr.writes_u32 (v := 921090057) (by decide)).writes.seq (reserve_sound.st.writes v h)
      | changeLib v => exact (Wr.writes_u32 (v := 653925844) (by decide)).writes.seq (changeLib_sound.st.writes v h),
    fun v h => by
      cases v with
      | sendMsg v => exact ⟨_, _, rfl, sendMsg_sound.st.canon v h, rfl⟩
      | setCode v => exact ⟨_, _, rfl, Tlb.cell_sound.st.canon v h, rfl⟩
      | reserve v => exact ⟨_, _, rfl, reserve_sound.st.canon v h, rfl⟩
      | changeLib v => exact ⟨_, _, rfl, changeLib_sound.st.canon v h, rfl⟩⟩
  ld := (Loads.switch Tlb.u32_sound.ld
      (fun v => match v with
        | .sendMsg _ => 247711853
        | .setCode _ => 2907562126
        | .reserve _ => 921090057
        | .changeLib _ => 653925844)
      (fun v => match v with
        | .sendMsg v => sendMsg.R v
        | .setCode v => Tlb.cell.R v
        | .reserve v => reserve.R v
        | .changeLib v => changeLib.R v) (by intro v; cases v <;> simp)
      (fun t ht => by
        by_cases h0 : t = 247711853
        · rw [if_pos h0]; subst h0
          exact (sendMsg_sound.ld.map OutAction.sendMsg).iff fun v e => by cases v <;> simp
        rw [if_neg h0]
        by_cases h1 : t = 2907562126
        · rw [if_pos h1]; subst h1
          exact (Tlb.cell_sound.ld.map OutAction.setCode).iff fun v e => by cases v <;> simp
        rw [if_neg h1]
        by_cases h2 : t = 921090057
        · rw [if_pos h2]; subst h2
          exact (reserve_sound.ld.map OutAction.reserve).iff fun v e => by cases v <;> simp
        rw [if_neg h2]
        by_cases h3 : t = 653925844
        · rw [if_pos h3]; subst h3
          exact (changeLib_sound.ld.map OutAction.changeLib).iff fun v e => by cases v <;> simp
        rw [if_neg h3]
        exact Loads.nothing (by decide) (by decide) fun v e => by cases v <;> simp <;> omega)).iff fun v e => by
    cases v with
    | sendMsg v => dsimp only; show (Enc.Lit (natBits 32 247711853) ⬝ sendMsg.R v) e ↔ (Enc.Lit (natBits 32 247711853) ⬝ sendMsg.R v) e; exact Iff.rfl
    | setCode v => dsimp only; show (Enc.Lit (natBits 32 2907562126) ⬝ Tlb.cell.R v) e ↔ (Enc.Lit (natBits 32 2907562126) ⬝ Tlb.cell.R v) e; exact Iff.rfl
    | reserve v => dsimp only; show (Enc.Lit (natBits 32 921090057) ⬝ reserve.R v) e ↔ (Enc.Lit (natBits 32 921090057) ⬝ reserve.R v) e; exact Iff.rfl
    | changeLib v => dsimp only; show (Enc.Lit (natBits 32 653925844) ⬝ changeLib.R v) e ↔ (Enc.Lit (natBits 32 653925844) ⬝ changeLib.R v) e; exact Iff.rfl

end Verif
