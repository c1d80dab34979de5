import Verif.EnvelopeProps
/-
C62: the accessors of inbound and outbound messages.
-/
set_option linter.unusedVariables false
namespace Verif

/-! ### Model -/

/-- `models/message/in_message.rs:81-87` `InMsg::transaction_cell` -/
def InMsg.transactionCell : InMsg → Option Cell
  | .external m => some m.transaction
  | .immediate m => some m.transaction
  | .final m => some m.transaction
  | .transit _ => none

/-- `models/message/in_message.rs:68-74` `InMsg::load_transaction`, for any loader of transactions -/
def InMsg.loadTransaction {α : Type} (load : Rd Cell α) : InMsg → Except Err (Option α)
  | .external m => (Tlb.parseAs load m.transaction).map some
  | .immediate m => (Tlb.parseAs load m.transaction).map some
  | .final m => (Tlb.parseAs load m.transaction).map some
  | .transit _ => .ok none

/-- `models/message/in_message.rs:90-107` `InMsg::{load_msg, load_msg_owned}`, which differ in the loader only -/
def InMsg.loadMsg {α : Type} (load : Rd Cell α) : InMsg → Except Err α
  | .external m => Tlb.parseAs load m.inMsg
  | .immediate m => viaEnvelope load m.inMsgEnvelope
  | .final m => viaEnvelope load m.inMsgEnvelope
  | .transit m => viaEnvelope load m.inMsgEnvelope

/-- `models/message/in_message.rs:110-117` `InMsg::load_msg_cell` -/
def InMsg.loadMsgCell : InMsg → Except Err Cell
  | .external m => .ok m.inMsg
  | .immediate m => cellViaEnvelope m.inMsgEnvelope
  | .final m => cellViaEnvelope m.inMsgEnvelope
  | .transit m => cellViaEnvelope m.inMsgEnvelope

/-- `models/message/in_message.rs:120-127` `InMsg::in_msg_envelope_cell` -/
def InMsg.inEnvelopeCell : InMsg → Option Cell
  | .external _ => none
  | .immediate m => some m.inMsgEnvelope
  | .final m => some m.inMsgEnvelope
  | .transit m => some m.inMsgEnvelope

/-- `models/message/in_message.rs:130-137` `InMsg::load_in_msg_envelope` -/
def InMsg.loadInEnvelope : InMsg → Except Err (Option MsgEnvelope)
  | .external _ => .ok none
  | .immediate m => (Tlb.lazyLoad msgEnvelope m.inMsgEnvelope).map some
  | .final m => (Tlb.lazyLoad msgEnvelope m.inMsgEnvelope).map some
  | .transit m => (Tlb.lazyLoad msgEnvelope m.inMsgEnvelope).map some

/-- `models/message/in_message.rs:140-147` `InMsg::out_msg_envelope_cell` -/
def InMsg.outEnvelopeCell : InMsg → Option Cell
  | .external _ => none
  | .immediate _ => none
  | .final _ => none
  | .transit m => some m.outMsgEnvelope

/-- `models/message/in_message.rs:150-157` `InMsg::load_out_msg_envelope` -/
def InMsg.loadOutEnvelope : InMsg → Except Err (Option MsgEnvelope)
  | .external _ => .ok none
  | .immediate _ => .ok none
  | .final _ => .ok none
  | .transit m => (Tlb.lazyLoad msgEnvelope m.outMsgEnvelope).map some

/-- `models/message/out_message.rs:87-95` `OutMsg::out_msg_envelope_cell` -/
def OutMsg.envelopeCell : OutMsg → Option Cell
  | .external _ => none
  | .new m => some m.outMsgEnvelope
  | .immediate m => some m.outMsgEnvelope
  | .dequeueShort _ => none
  | .dequeueImmediate m => some m.outMsgEnvelope

/-- `models/message/out_message.rs:76-84` `OutMsg::load_out_msg_envelope` -/
def OutMsg.loadEnvelope : OutMsg → Except Err (Option MsgEnvelope)
  | .external _ => .ok none
  | .new m => (Tlb.lazyLoad msgEnvelope m.outMsgEnvelope).map some
  | .immediate m => (Tlb.lazyLoad msgEnvelope m.outMsgEnvelope).map some
  | .dequeueShort _ => .ok none
  | .dequeueImmediate m => (Tlb.lazyLoad msgEnvelope m.outMsgEnvelope).map some

/-- `models/message/out_message.rs:98-117` `OutMsg::{load_message, load_message_owned}`, which differ in the loader only -/
def OutMsg.loadMessage {α : Type} (load : Rd Cell α) : OutMsg → Except Err (Option α)
  | .external m => (Tlb.parseAs load m.outMsg).map some
  | .new m => (viaEnvelope load m.outMsgEnvelope).map some
  | .immediate m => (viaEnvelope load m.outMsgEnvelope).map some
  | .dequeueShort _ => .ok none
  | .dequeueImmediate m => (viaEnvelope load m.outMsgEnvelope).map some

/-- `models/message/out_message.rs:120-128` `OutMsg::transaction_cell` -/
def OutMsg.transactionCell : OutMsg → Option Cell
  | .external m => some m.transaction
  | .new m => some m.transaction
  | .immediate m => some m.transaction
  | .dequeueShort _ => none
  | .dequeueImmediate _ => none

/-- `models/message/out_message.rs:131-139` `OutMsg::load_transaction`, for any loader of transactions -/
def OutMsg.loadTransaction {α : Type} (load : Rd Cell α) : OutMsg → Except Err (Option α)
  | .external m => (Tlb.parseAs load m.transaction).map some
  | .new m => (Tlb.parseAs load m.transaction).map some
  | .immediate m => (Tlb.parseAs load m.transaction).map some
  | .dequeueShort _ => .ok none
  | .dequeueImmediate _ => .ok none

/-- `models/message/out_message.rs:151-157` `OutMsg::reimport_msg_cell` -/
def OutMsg.reimportCell : OutMsg → Option Cell
  | .immediate m => some m.reimport
  | .dequeueImmediate m => some m.reimport
  | _ => none

/-- `models/message/out_message.rs:142-148` `OutMsg::load_reimport_msg` -/
def OutMsg.loadReimport : OutMsg → Except Err (Option InMsg)
  | .immediate m => (Tlb.lazyLoad inMsg m.reimport).map some
  | .dequeueImmediate m => (Tlb.lazyLoad inMsg m.reimport).map some
  | _ => .ok none

/-! ### Specification -/

/-- The parts of a message description as in the TL-B schemes (`msg_import_ext$000 msg:^ transaction:^`, `msg_import_imm$011 in_msg:^MsgEnvelope
transaction:^ ..`, and so on): the message itself if it is there without an envelope, the envelope it came in, the envelope it leaves in, the transaction
and the inbound message of the destination. -/
structure Parts where
  bare : Option Cell := none
  arrives : Option Cell := none
  leaves : Option Cell := none
  tx : Option Cell := none
  reimport : Option Cell := none

/-- The references of a description, in order. -/
def Parts.form (p : Parts) : List Cell := p.bare.toList ++ p.arrives.toList ++ p.leaves.toList ++ p.tx.toList ++ p.reimport.toList

def InMsg.parts : InMsg → Parts
  | .external m => { bare := some m.inMsg, tx := some m.transaction }
  | .immediate m => { arrives := some m.inMsgEnvelope, tx := some m.transaction }
  | .final m => { arrives := some m.inMsgEnvelope, tx := some m.transaction }
  | .transit m => { arrives := some m.inMsgEnvelope, leaves := some m.outMsgEnvelope }

def OutMsg.parts : OutMsg → Parts
  | .external m => { bare := some m.outMsg, tx := some m.transaction }
  | .new m => { leaves := some m.outMsgEnvelope, tx := some m.transaction }
  | .immediate m => { leaves := some m.outMsgEnvelope, tx := some m.transaction, reimport := some m.reimport }
  | .dequeueImmediate m => { leaves := some m.outMsgEnvelope, reimport := some m.reimport }
  | .dequeueShort _ => {}

/-- The optional load of an optional part: nothing from nothing, and an error exactly when the part is there and cannot be loaded. -/
def Parts.load {α : Type} (f : Cell → Except Err α) : Option Cell → Except Err (Option α)
  | none => .ok none
  | some c => (f c).map some

/-- The cell of the message is `c`: it is the bare message, or the one enclosed in this envelope. -/
def Parts.Holds (bare env : Option Cell) (c : Cell) : Prop := bare = some c ∨ bare = none ∧ ∃ e fee, env = some e ∧ Encloses e fee c

/-! ### C62 -/

/-- The parts are the references of the stored description, so nothing of it is hidden: whatever description is stored has the references that
the accessors give. -/
theorem C62_in_parts {m : InMsg} {e : Enc Cell} (h : inMsg.R m e) : e.2 = m.parts.form := by
  cases m with
  | external m => obtain ⟨_, _, rfl, ⟨_, _, ⟨_, rfl⟩, ⟨_, rfl⟩, rfl⟩, rfl⟩ := h; rfl
  | immediate m => obtain ⟨_, _, rfl, ⟨_, _, ⟨_, rfl⟩, ⟨_, _, ⟨_, rfl⟩, ⟨_, _, _, _, rfl⟩, rfl⟩, rfl⟩, rfl⟩ := h; rfl
  | final m => obtain ⟨_, _, rfl, ⟨_, _, ⟨_, rfl⟩, ⟨_, _, ⟨_, rfl⟩, ⟨_, _, _, _, rfl⟩, rfl⟩, rfl⟩, rfl⟩ := h; rfl
  | transit m => obtain ⟨_, _, rfl, ⟨_, _, ⟨_, rfl⟩, ⟨_, _, ⟨_, rfl⟩, ⟨_, _, _, _, rfl⟩, rfl⟩, rfl⟩, rfl⟩ := h; rfl

theorem C62_out_parts {m : OutMsg} {e : Enc Cell} (h : outMsg.R m e) : e.2 = m.parts.form := by
  cases m with
  | external m => obtain ⟨_, _, rfl, ⟨_, _, ⟨_, rfl⟩, ⟨_, rfl⟩, rfl⟩, rfl⟩ := h; rfl
  | new m => obtain ⟨_, _, rfl, ⟨_, _, ⟨_, rfl⟩, ⟨_, rfl⟩, rfl⟩, rfl⟩ := h; rfl
  | immediate m => obtain ⟨_, _, rfl, ⟨_, _, ⟨_, rfl⟩, ⟨_, _, ⟨_, rfl⟩, ⟨_, rfl⟩, rfl⟩, rfl⟩, rfl⟩ := h; rfl
  | dequeueImmediate m => obtain ⟨_, _, rfl, ⟨_, _, ⟨_, rfl⟩, ⟨_, rfl⟩, rfl⟩, rfl⟩ := h; rfl
  | dequeueShort m => obtain ⟨_, _, rfl, ⟨_, _, ⟨_, rfl⟩, ⟨_, _, ⟨_, rfl⟩, ⟨_, _, ⟨_, rfl⟩, ⟨_, rfl⟩, rfl⟩, rfl⟩, rfl⟩, rfl⟩ := h; rfl

/-- **C62, accessors of inbound messages.** Each part is there for exactly the kinds of messages that have it, loading a part is loading its cell, and the
message is the bare one or the one enclosed in the envelope it came in, with the same result as loading that cell. -/
theorem C62_in_accessors (m : InMsg) :
    m.transactionCell = m.parts.tx ∧ m.inEnvelopeCell = m.parts.arrives ∧ m.outEnvelopeCell = m.parts.leaves ∧
    (∀ (α : Type) (load : Rd Cell α), m.loadTransaction load = Parts.load (Tlb.parseAs load) m.parts.tx) ∧
    m.loadInEnvelope = Parts.load (Tlb.lazyLoad msgEnvelope) m.parts.arrives ∧ m.loadOutEnvelope = Parts.load (Tlb.lazyLoad msgEnvelope) m.parts.leaves ∧
    ∀ c, Parts.Holds m.parts.bare m.parts.arrives c → m.loadMsgCell = .ok c ∧ ∀ (α : Type) (load : Rd Cell α), m.loadMsg load = Tlb.parseAs load c := by
  have env : ∀ {e c : Cell} {fee : Nat}, Encloses e fee c → cellViaEnvelope e = .ok c ∧ ∀ (α : Type) (load : Rd Cell α), viaEnvelope load e = Tlb.parseAs load c := by
    rintro e c fee ⟨v, h, rfl, rfl⟩
    exact ⟨(C62_shortcuts h).2.1, (C62_shortcuts h).1⟩
  cases m with
  | external m =>
    refine ⟨rfl, rfl, rfl, fun _ _ => rfl, rfl, rfl, fun c h => ?_⟩
    rcases h with h | ⟨h, _⟩
    · cases h; exact ⟨rfl, fun _ _ => rfl⟩
    · cases h
  | immediate m =>
    refine ⟨rfl, rfl, rfl, fun _ _ => rfl, rfl, rfl, fun c h => ?_⟩
    rcases h with h | ⟨_, e, fee, he, h⟩
    · cases h
    · cases he; exact env h
  | final m =>
    refine ⟨rfl, rfl, rfl, fun _ _ => rfl, rfl, rfl, fun c h => ?_⟩
    rcases h with h | ⟨_, e, fee, he, h⟩
    · cases h
    · cases he; exact env h
  | transit m =>
    refine ⟨rfl, rfl, rfl, fun _ _ => rfl, rfl, rfl, fun c h => ?_⟩
    rcases h with h | ⟨_, e, fee, he, h⟩
    · cases h
    · cases he; exact env h

/-- **C62, accessors of outbound messages.** The same for the envelope a message leaves in, its source transaction and the inbound message of the
destination; a message that was only dequeued has none of them. -/
theorem C62_out_accessors (m : OutMsg) :
    m.transactionCell = m.parts.tx ∧ m.envelopeCell = m.parts.leaves ∧ m.reimportCell = m.parts.reimport ∧
    (∀ (α : Type) (load : Rd Cell α), m.loadTransaction load = Parts.load (Tlb.parseAs load) m.parts.tx) ∧
    m.loadEnvelope = Parts.load (Tlb.lazyLoad msgEnvelope) m.parts.leaves ∧ m.loadReimport = Parts.load (Tlb.lazyLoad inMsg) m.parts.reimport ∧
    (∀ c, Parts.Holds m.parts.bare m.parts.leaves c → ∀ (α : Type) (load : Rd Cell α), m.loadMessage load = (Tlb.parseAs load c).map some) ∧
    (m.parts.bare = none → m.parts.leaves = none → ∀ (α : Type) (load : Rd Cell α), m.loadMessage load = .ok none) := by
  have env : ∀ {e c : Cell} {fee : Nat}, Encloses e fee c → ∀ (α : Type) (load : Rd Cell α), (viaEnvelope load e).map some = (Tlb.parseAs load c).map some := by
    rintro e c fee ⟨v, h, rfl, rfl⟩ α load
    rw [(C62_shortcuts h).1]
  cases m with
  | external m =>
    refine ⟨rfl, rfl, rfl, fun _ _ => rfl, rfl, rfl, fun c h => ?_, fun h => (by cases h)⟩
    rcases h with h | ⟨h, _⟩
    · cases h; exact fun _ _ => rfl
    · cases h
  | new m =>
    refine ⟨rfl, rfl, rfl, fun _ _ => rfl, rfl, rfl, fun c h => ?_, fun _ h => (by cases h)⟩
    rcases h with h | ⟨_, e, fee, he, h⟩
    · cases h
    · cases he; exact env h
  | immediate m =>
    refine ⟨rfl, rfl, rfl, fun _ _ => rfl, rfl, rfl, fun c h => ?_, fun _ h => (by cases h)⟩
    rcases h with h | ⟨_, e, fee, he, h⟩
    · cases h
    · cases he; exact env h
  | dequeueImmediate m =>
    refine ⟨rfl, rfl, rfl, fun _ _ => rfl, rfl, rfl, fun c h => ?_, fun _ h => (by cases h)⟩
    rcases h with h | ⟨_, e, fee, he, h⟩
    · cases h
    · cases he; exact env h
  | dequeueShort m =>
    refine ⟨rfl, rfl, rfl, fun _ _ => rfl, rfl, rfl, fun c h => ?_, fun _ _ _ _ => rfl⟩
    rcases h with h | ⟨_, e, fee, he, h⟩
    · cases h
    · cases he

/-- **C62, envelopes are not checked by the shortcuts.** A cell that is no envelope (it has no tag and no addresses) but has a reference is passed over by
the accessors of the message, which give that reference, while loading the envelope and the fees are errors. -/
theorem C62_no_envelope_needed (c tx : Cell) (fee : Nat) :
    let m := InMsg.final ⟨.mk false [] [c], tx, fee⟩
    m.loadMsgCell = .ok c ∧ m.loadInEnvelope = .error .cellUnderflow ∧ m.computeFees = .error .cellUnderflow := by
  have h : Tlb.lazyLoad msgEnvelope (.mk false [] [c]) = .error .cellUnderflow := rfl
  refine ⟨rfl, ?_, ?_⟩
  · show (Tlb.lazyLoad msgEnvelope (.mk false [] [c])).map some = _
    rw [h]; rfl
  · show (Tlb.lazyLoad msgEnvelope (.mk false [] [c]) >>= fun env => _) = _
    rw [h]; rfl

-- an enclosed message, reached from an inbound and from an outbound description
example : ∃ e, (InMsg.transit ⟨e, exMsgCell, 1⟩).loadMsgCell = .ok exMsgCell ∧
    (OutMsg.new ⟨e, exMsgCell⟩).loadMessage msgInfo.load = .ok (some (.int exCarried)) := by
  obtain ⟨e, h⟩ := exEnvelope_encloses
  refine ⟨e, ((C62_in_accessors _).2.2.2.2.2.2 _ (Or.inr ⟨rfl, e, 3, rfl, h⟩)).1, ?_⟩
  rw [(C62_out_accessors _).2.2.2.2.2.2.1 _ (Or.inr ⟨rfl, e, 3, rfl, h⟩), exMsgCell_info]
  rfl

end Verif
