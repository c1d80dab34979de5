import Verif.Envelope
import Verif.TransactionProps
import Verif.CurrencyThms
/-
C62: message envelopes, inbound and outbound messages.
-/
set_option linter.unusedVariables false
set_option linter.unusedSimpArgs false
namespace Verif

/-! ### Model -/

/-- The accessors that read the message straight from the cell of its envelope: `as_slice` of the envelope, `load_reference_as_slice`, and then
the loader (`models/message/in_message.rs:305-330`, `:357-388`, `models/message/out_message.rs:28-44`, `:278-301`, `:330-352`, `:376-398`). -/
def viaEnvelope {α : Type} (load : Rd Cell α) (env : Cell) : Except Err α := Tlb.parseAs (Tlb.childLoad load) env

/-- `load_in_msg_cell` and `load_out_msg_cell` (`models/message/in_message.rs:328-330`, `:382-389`). -/
def cellViaEnvelope (env : Cell) : Except Err Cell := Tlb.parseAs Rd.ref env

/-- `if let MsgInfo::Int(info) = .. { Ok(info) } else { Err(Error::InvalidData) }` -/
def onlyInt : MsgInfo → Except Err (IntInfo IntAddr)
  | .int i => .ok i
  | _ => .error .invalidData

/-- `models/message/envelope.rs:202-208` `load_message_info` -/
def MsgEnvelope.loadMessageInfo (env : MsgEnvelope) : Except Err (IntInfo IntAddr) := Tlb.parseAs msgInfo.load env.message >>= onlyInt

/-- `InMsgFinal::load_in_msg_info` (`models/message/in_message.rs:311-319`); the same in `out_message.rs`. -/
def infoViaEnvelope (env : Cell) : Except Err (IntInfo IntAddr) := viaEnvelope msgInfo.load env >>= onlyInt

/-- `models/message/envelope.rs:226-234` `collect_fee` -/
def MsgEnvelope.collectFee (env : MsgEnvelope) (fee : Nat) : Bool × MsgEnvelope :=
  match VarKind.tokens.kind.checkedSub env.fwdFeeRemaining fee with
  | some remaining => (true, { env with fwdFeeRemaining := remaining })
  | none => (false, env)

/-- `IntermediateAddrRegular::{with_dest_bits, with_src_bits, use_src_bits}` (`models/message/envelope.rs:134-153`); the last is a subtraction of
`u8`, which panics below zero. -/
def withDestBits (n : Nat) : Option Nat := if n ≤ 96 then some n else none
def withSrcBits (n : Nat) : Option Nat := if n ≤ 96 then some (96 - n) else none
def useSrcBits (n : Nat) : Except Err Nat := if n ≤ 96 then .ok (96 - n) else .error .panic

/-- `try_add_assign_tokens` of a local value. -/
def plusTokens (v : Currency) (t : Nat) : Except Err Currency :=
  match v.tryAddTokens t with
  | (.ok (), v) => .ok v
  | (.error e, _) => .error e

/-- `InMsg::compute_fees` (`models/message/in_message.rs:163-208`): fees collected and value imported. -/
def InMsg.computeFees : InMsg → Except Err (Nat × Currency)
  | .external _ => .ok (0, Currency.zero)
  | .immediate m => infoViaEnvelope m.inMsgEnvelope >>= fun info => .ok (info.fwdFee, Currency.zero)
  | .final m => Tlb.lazyLoad msgEnvelope m.inMsgEnvelope >>= fun env =>
      if m.fwdFee ≠ env.fwdFeeRemaining then .error .invalidData else
      env.loadMessageInfo >>= fun info => plusTokens info.value info.ihrFee >>= fun v => plusTokens v env.fwdFeeRemaining >>= fun v =>
      .ok (env.fwdFeeRemaining, v)
  | .transit m => Tlb.lazyLoad msgEnvelope m.inMsgEnvelope >>= fun env =>
      if env.fwdFeeRemaining < m.transitFee then .error .invalidData else
      env.loadMessageInfo >>= fun info => plusTokens info.value info.ihrFee >>= fun v => plusTokens v env.fwdFeeRemaining >>= fun v =>
      .ok (m.transitFee, v)

/-- `OutMsg::compute_exported_value` (`models/message/out_message.rs:160-172`) -/
def OutMsg.exportedValue : OutMsg → Except Err Currency
  | .new m => Tlb.lazyLoad msgEnvelope m.outMsgEnvelope >>= fun env => env.loadMessageInfo >>= fun info =>
      plusTokens info.value info.ihrFee >>= fun v => plusTokens v env.fwdFeeRemaining
  | _ => .ok Currency.zero

/-- `EnqueuedMsg::load_created_lt` (`models/message/out_message.rs:20-26`) -/
def EnqueuedMsg.loadCreatedLt (m : EnqueuedMsg) : Except Err Nat :=
  viaEnvelope msgInfo.load m.outMsgEnvelope >>= fun
    | .int i => .ok i.createdLt
    | .extOut i => .ok i.createdLt
    | .extIn _ => .error .invalidData

/-! ### Specification -/

/-- The cell `env` is an envelope around the message in the cell `msg`, with this fee remaining. -/
def Encloses (env : Cell) (fee : Nat) (msg : Cell) : Prop :=
  ∃ v : MsgEnvelope, Tlb.lazyLoad msgEnvelope env = .ok v ∧ v.fwdFeeRemaining = fee ∧ v.message = msg

/-- What an internal message carries: its value, its IHR fee and the forward fee that remains. -/
def carried (info : IntInfo IntAddr) (fee : Nat) : Currency := ⟨info.value.tokens + info.ihrFee + fee, info.value.other⟩

/-! ### Lemmas -/

/-- Reading the first reference of a reader and parsing it. -/
theorem childLoad_ref {α : Type} (load : Rd Cell α) (b : Bits) (c : Cell) (r : List Cell) (hf : b.length ≤ 1023 ∧ (c :: r).length ≤ 4) :
    (Tlb.childLoad load (Sl.reader ⟨b, c :: r⟩)).1 = Tlb.parseAs load c := by
  obtain ⟨w, ct⟩ := Tlb.reader_contents (b := b) (r := c :: r) hf
  obtain ⟨s', h1, _⟩ := Rd.reads_ref c (Sl.reader ⟨b, c :: r⟩) (b, r) w (by rw [ct]; rfl)
  by_cases hx : c.exotic = true
  · have e : Tlb.childSlice (Sl.reader ⟨b, c :: r⟩) = (.error .unexpectedExoticCell, Sl.reader ⟨b, c :: r⟩) := by
      unfold Tlb.childSlice; rw [h1]; dsimp only; rw [if_pos hx]
    have h : Tlb.childLoad load (Sl.reader ⟨b, c :: r⟩) = (.error .unexpectedExoticCell, Sl.reader ⟨b, c :: r⟩) := Prog.bind_err e
    unfold Tlb.parseAs
    rw [h, if_pos hx]
  · unfold Tlb.parseAs
    rw [if_neg hx]
    by_cases hf : c.bits.length ≤ 1023 ∧ c.refs.length ≤ 4
    · have e : Tlb.childSlice (Sl.reader ⟨b, c :: r⟩) = (.ok (Sl.reader ⟨c.bits, c.refs⟩), s') := by
        unfold Tlb.childSlice; rw [h1]; dsimp only; rw [if_neg hx, if_pos hf]
      have h : Tlb.childLoad load (Sl.reader ⟨b, c :: r⟩) = ((load (Sl.reader ⟨c.bits, c.refs⟩)).1, s') := Prog.bind_ok e
      rw [h, if_pos hf]
    · have e : Tlb.childSlice (Sl.reader ⟨b, c :: r⟩) = (.error .cellUnderflow, Sl.reader ⟨b, c :: r⟩) := by
        unfold Tlb.childSlice; rw [h1]; dsimp only; rw [if_neg hx, if_neg hf]
      have h : Tlb.childLoad load (Sl.reader ⟨b, c :: r⟩) = (.error .cellUnderflow, Sl.reader ⟨b, c :: r⟩) := Prog.bind_err e
      rw [h, if_neg hf]

/-- A lazily loaded value comes from an encoding at the start of the cell. -/
theorem lazyLoad_inv {α : Type} {T : Tlb α} (h : T.Sound) {c : Cell} {v : α} (hv : Tlb.lazyLoad T c = .ok v) :
    c.exotic = false ∧ (c.bits.length ≤ 1023 ∧ c.refs.length ≤ 4) ∧ ∃ e rest, T.R v e ∧ (c.bits, c.refs) = e ++ rest := by
  unfold Tlb.lazyLoad at hv
  by_cases hx : c.exotic = true
  · rw [if_pos hx] at hv; cases hv
  rw [if_neg hx] at hv
  by_cases hf : c.bits.length ≤ 1023 ∧ c.refs.length ≤ 4
  · rw [if_pos hf] at hv
    obtain ⟨w, ct⟩ := Tlb.reader_contents hf
    generalize hr : T.load (Sl.reader ⟨c.bits, c.refs⟩) = out at hv
    obtain ⟨o, s⟩ := out
    dsimp only at hv
    subst hv
    obtain ⟨e, h1, h2, _⟩ := h.ld.exact _ _ _ w hr
    refine ⟨?_, hf, e, s.contents, h1, ct ▸ h2⟩
    cases hc : c.exotic
    · rfl
    · exact absurd hc hx
  · rw [if_neg hf] at hv; cases hv

theorem interAddr_bits {v : InterAddr} {e : Enc Cell} (h : interAddr.R v e) : e.2 = [] := by
  cases v with
  | regular n => obtain ⟨_, _, rfl, ⟨⟨_, rfl⟩, _⟩, rfl⟩ := h; rfl
  | simple a => obtain ⟨_, _, rfl, ⟨_, _, ⟨_, rfl⟩, ⟨_, rfl⟩, rfl⟩, rfl⟩ := h; rfl
  | ext a => obtain ⟨_, _, rfl, ⟨_, _, ⟨_, rfl⟩, ⟨_, rfl⟩, rfl⟩, rfl⟩ := h; rfl

/-- The only reference of an envelope is the message. -/
theorem msgEnvelope_ref {v : MsgEnvelope} {e : Enc Cell} (h : msgEnvelope.R v e) : e.2 = [v.message] ∧ v.message.exotic = false := by
  obtain ⟨_, _, rfl, ⟨e1, _, h1, ⟨e2, _, h2, ⟨_, _, ⟨_, _, _, _, rfl⟩, ⟨hx, rfl⟩, rfl⟩, rfl⟩, rfl⟩, rfl⟩ := h
  refine ⟨?_, hx⟩
  show _ ++ (_ ++ (_ ++ (_ ++ _))) = _
  rw [interAddr_bits h1, interAddr_bits h2]
  rfl

theorem plusTokens_eq (v : Currency) (t : Nat) :
    plusTokens v t = if v.tokens + t ≤ VarKind.tokens.max then .ok ⟨v.tokens + t, v.other⟩ else .error .intOverflow := by
  unfold plusTokens
  rw [(C45_assign (fun _ => true) v v t).2.2.2.2.1]
  by_cases h : v.tokens + t ≤ VarKind.tokens.max
  · rw [if_pos h, if_pos h]
  · rw [if_neg h, if_neg h]

theorem plusTokens_twice (v : Currency) (a b : Nat) :
    (plusTokens v a >>= fun v => plusTokens v b) =
      if v.tokens + a + b ≤ VarKind.tokens.max then .ok ⟨v.tokens + a + b, v.other⟩ else .error .intOverflow := by
  rw [plusTokens_eq]
  by_cases h : v.tokens + a ≤ VarKind.tokens.max
  · rw [if_pos h]
    exact plusTokens_eq _ _
  · rw [if_neg h, if_neg (by omega)]
    rfl

/-! ### C62 -/

/-- **C62, codecs.** Envelopes, addresses of the next hop, inbound, outbound and enqueued messages are stored in exactly their documented form,
loaded back from it whatever follows, and nothing else is accepted. -/
theorem C62_codecs : interAddr.Sound ∧ msgEnvelope.Sound ∧ inMsg.Sound ∧ outMsg.Sound ∧ enqueuedMsg.Sound :=
  ⟨interAddr_sound, msgEnvelope_sound, inMsg_sound, outMsg_sound, enqueuedMsg_sound⟩

/-- **C62, shortcuts.** The accessors that skip the envelope and read its first reference give the same result, success or error, as loading the
envelope and then its message. -/
theorem C62_shortcuts {env : Cell} {v : MsgEnvelope} (h : Tlb.lazyLoad msgEnvelope env = .ok v) :
    (∀ (α : Type) (load : Rd Cell α), viaEnvelope load env = Tlb.parseAs load v.message) ∧ cellViaEnvelope env = .ok v.message ∧
    infoViaEnvelope env = v.loadMessageInfo := by
  obtain ⟨hx, hf, ⟨b, r⟩, ⟨b', r'⟩, hR, he⟩ := lazyLoad_inv msgEnvelope_sound h
  obtain ⟨hr, _⟩ := msgEnvelope_ref hR
  have hrefs : env.refs = v.message :: r' := by
    have : env.refs = r ++ r' := congrArg Prod.snd he
    rw [this, show r = [v.message] from hr]; rfl
  have key : ∀ (α : Type) (load : Rd Cell α), viaEnvelope load env = Tlb.parseAs load v.message := by
    intro α load
    unfold viaEnvelope
    rw [Tlb.parseAs, if_neg (by rw [hx]; decide), if_pos hf, hrefs]
    exact childLoad_ref load _ _ _ (hrefs ▸ hf)
  refine ⟨key, ?_, ?_⟩
  · unfold cellViaEnvelope
    rw [Tlb.parseAs, if_neg (by rw [hx]; decide), if_pos hf, hrefs]
    obtain ⟨w, ct⟩ := Tlb.reader_contents (b := env.bits) (r := v.message :: r') (hrefs ▸ hf)
    obtain ⟨s', h1, _⟩ := Rd.reads_ref v.message (Sl.reader ⟨env.bits, v.message :: r'⟩) (env.bits, r') w (by rw [ct]; rfl)
    rw [h1]
  · unfold infoViaEnvelope MsgEnvelope.loadMessageInfo
    rw [key]

/-- **C62, exported value.** The value exported by a new outbound message is what the message carries; it is refused only if the sum does not fit. -/
theorem C62_exported {env msg tx : Cell} {fee : Nat} (h : Encloses env fee msg) {info : IntInfo IntAddr} (hi : Tlb.parseAs msgInfo.load msg = .ok (.int info)) :
    (OutMsg.new ⟨env, tx⟩).exportedValue =
      if (carried info fee).tokens ≤ VarKind.tokens.max then .ok (carried info fee) else .error .intOverflow := by
  obtain ⟨v, h1, rfl, rfl⟩ := h
  have hi' : v.loadMessageInfo = .ok info := by unfold MsgEnvelope.loadMessageInfo; rw [hi]; rfl
  show (Tlb.lazyLoad msgEnvelope env >>= fun v => v.loadMessageInfo >>= fun info => plusTokens info.value info.ihrFee >>= fun x =>
    plusTokens x v.fwdFeeRemaining) = _
  rw [h1]
  show (v.loadMessageInfo >>= fun info => plusTokens info.value info.ihrFee >>= fun x => plusTokens x v.fwdFeeRemaining) = _
  rw [hi']
  exact plusTokens_twice _ _ _

/-- **C62, conservation.** Whatever value one block exports with a new message, another block imports it with the same envelope, be it to execute
the message or to pass it on; the fees collected are the fee remaining (which must be the one declared) or a part of it. -/
theorem C62_imported {env msg : Cell} {fee : Nat} (h : Encloses env fee msg) (tx tx' env' : Cell) {v : Currency}
    (hv : (OutMsg.new ⟨env, tx⟩).exportedValue = .ok v) (declared : Nat) :
    (InMsg.final ⟨env, tx', declared⟩).computeFees = (if declared = fee then .ok (fee, v) else .error .invalidData) ∧
    (InMsg.transit ⟨env, env', declared⟩).computeFees = (if declared ≤ fee then .ok (declared, v) else .error .invalidData) := by
  obtain ⟨w, h1, rfl, rfl⟩ := h
  have hv' : (w.loadMessageInfo >>= fun info => plusTokens info.value info.ihrFee >>= fun x => plusTokens x w.fwdFeeRemaining) = .ok v := by
    have : (Tlb.lazyLoad msgEnvelope env >>= fun v => v.loadMessageInfo >>= fun info => plusTokens info.value info.ihrFee >>= fun x =>
      plusTokens x v.fwdFeeRemaining) = .ok v := hv
    rw [h1] at this
    exact this
  have key : ∀ f : Nat, (w.loadMessageInfo >>= fun info => plusTokens info.value info.ihrFee >>= fun x => plusTokens x w.fwdFeeRemaining >>= fun x =>
      (.ok (f, x) : Except Err (Nat × Currency))) = .ok (f, v) := by
    intro f
    cases hw : w.loadMessageInfo with
    | error e => rw [hw] at hv'; cases hv'
    | ok info =>
      rw [hw] at hv'
      change (plusTokens info.value info.ihrFee >>= fun x => plusTokens x w.fwdFeeRemaining) = .ok v at hv'
      show (plusTokens info.value info.ihrFee >>= fun x => plusTokens x w.fwdFeeRemaining >>= fun x => (.ok (f, x) : Except Err (Nat × Currency))) = .ok (f, v)
      cases hp : plusTokens info.value info.ihrFee with
      | error e => rw [hp] at hv'; cases hv'
      | ok x =>
        rw [hp] at hv'
        change plusTokens x w.fwdFeeRemaining = .ok v at hv'
        show (plusTokens x w.fwdFeeRemaining >>= fun x => (.ok (f, x) : Except Err (Nat × Currency))) = .ok (f, v)
        rw [hv']; rfl
  constructor
  · show (Tlb.lazyLoad msgEnvelope env >>= fun w => if declared ≠ w.fwdFeeRemaining then .error .invalidData else
      w.loadMessageInfo >>= fun info => plusTokens info.value info.ihrFee >>= fun v => plusTokens v w.fwdFeeRemaining >>= fun v =>
      .ok (w.fwdFeeRemaining, v)) = _
    rw [h1]
    show (if declared ≠ w.fwdFeeRemaining then .error .invalidData else w.loadMessageInfo >>= fun info => plusTokens info.value info.ihrFee >>= fun v =>
      plusTokens v w.fwdFeeRemaining >>= fun v => .ok (w.fwdFeeRemaining, v)) = _
    by_cases hd : declared = w.fwdFeeRemaining
    · rw [if_neg (by simpa using hd), if_pos hd]; exact key _
    · rw [if_pos hd, if_neg hd]
  · show (Tlb.lazyLoad msgEnvelope env >>= fun w => if w.fwdFeeRemaining < declared then .error .invalidData else
      w.loadMessageInfo >>= fun info => plusTokens info.value info.ihrFee >>= fun v => plusTokens v w.fwdFeeRemaining >>= fun v =>
      .ok (declared, v)) = _
    rw [h1]
    show (if w.fwdFeeRemaining < declared then .error .invalidData else w.loadMessageInfo >>= fun info => plusTokens info.value info.ihrFee >>= fun v =>
      plusTokens v w.fwdFeeRemaining >>= fun v => .ok (declared, v)) = _
    by_cases hd : declared ≤ w.fwdFeeRemaining
    · rw [if_neg (by omega), if_pos hd]; exact key _
    · rw [if_pos (by omega), if_neg hd]

/-- **C62, immediate messages** import no value and collect the whole forward fee of the message; other outbound messages export nothing. -/
theorem C62_immediate {env msg : Cell} {fee : Nat} (h : Encloses env fee msg) {info : IntInfo IntAddr} (hi : Tlb.parseAs msgInfo.load msg = .ok (.int info))
    (tx : Cell) (declared : Nat) : (InMsg.immediate ⟨env, tx, declared⟩).computeFees = .ok (info.fwdFee, Currency.zero) := by
  obtain ⟨v, h1, rfl, rfl⟩ := h
  show (infoViaEnvelope env >>= fun info => .ok (info.fwdFee, Currency.zero)) = _
  rw [(C62_shortcuts h1).2.2]
  unfold MsgEnvelope.loadMessageInfo
  rw [hi]; rfl

/-- **C62, enqueued messages.** The creation time is the one in the header of the enclosed message. -/
theorem C62_created_lt {m : EnqueuedMsg} {msg : Cell} {fee : Nat} (h : Encloses m.outMsgEnvelope fee msg) :
    (∀ i, Tlb.parseAs msgInfo.load msg = .ok (.int i) → m.loadCreatedLt = .ok i.createdLt) ∧
    (∀ i, Tlb.parseAs msgInfo.load msg = .ok (.extOut i) → m.loadCreatedLt = .ok i.createdLt) ∧
    (∀ i, Tlb.parseAs msgInfo.load msg = .ok (.extIn i) → m.loadCreatedLt = .error .invalidData) := by
  obtain ⟨v, h1, rfl, rfl⟩ := h
  have key := (C62_shortcuts h1).1 _ msgInfo.load
  refine ⟨fun i hi => ?_, fun i hi => ?_, fun i hi => ?_⟩ <;>
    · unfold EnqueuedMsg.loadCreatedLt
      rw [key, hi]; rfl

/-- **C62, collecting fees.** Exactly the fee is taken from what remains; if it is not covered nothing changes. -/
theorem C62_collect_fee (env : MsgEnvelope) (hv : env.fwdFeeRemaining ≤ VarKind.tokens.max) (fee : Nat) :
    (fee ≤ env.fwdFeeRemaining → env.collectFee fee = (true, { env with fwdFeeRemaining := env.fwdFeeRemaining - fee })) ∧
    (env.fwdFeeRemaining < fee → env.collectFee fee = (false, env)) := by
  unfold MsgEnvelope.collectFee
  rw [tokens_sub]
  refine ⟨fun h => ?_, fun h => ?_⟩
  · rw [if_pos ⟨h, by omega⟩]
  · rw [if_neg (by omega)]

/-- **C62, bits of the source and destination.** Every regular address that can be created or loaded has as many bits of the source as it
lacks of the destination, and asking for them does not panic. -/
theorem C62_regular_bits :
    (∀ n d, withDestBits n = some d → d = n ∧ useSrcBits d = .ok (96 - n)) ∧ (∀ n d, withSrcBits n = some d → useSrcBits d = .ok n) ∧
    (∀ (s s' : CSlice Cell) d, s.WF → regularAddr.load s = (.ok d, s') → ∃ k, useSrcBits d = .ok k ∧ d + k = 96) := by
  refine ⟨fun n d h => ?_, fun n d h => ?_, fun s s' d w h => ?_⟩
  · unfold withDestBits at h
    by_cases hn : n ≤ 96
    · rw [if_pos hn] at h; cases h
      exact ⟨rfl, if_pos hn⟩
    · rw [if_neg hn] at h; cases h
  · unfold withSrcBits at h
    by_cases hn : n ≤ 96
    · rw [if_pos hn] at h; cases h
      have : useSrcBits (96 - n) = .ok (96 - (96 - n)) := if_pos (by omega)
      rw [this, show 96 - (96 - n) = n by omega]
    · rw [if_neg hn] at h; cases h
  · obtain ⟨e, ⟨_, h2⟩, _⟩ := regularAddr_sound.ld.exact _ _ _ w h
    have hd : d ≤ 96 := of_decide_eq_true h2
    exact ⟨96 - d, if_pos hd, by omega⟩

/-! ### The hypotheses can be met -/

/-- A message that carries 1000 + 20 tokens, in an envelope with a fee of 3. -/
def exCarried : IntInfo IntAddr := { exIntInfo with value := ⟨1000, none⟩, ihrFee := 20, fwdFee := 9 }
def exMsgCell : Cell := .mk false ((msgInfo.enc (.int exCarried)).1 ++ [false, false]) []
def exEnvelope : MsgEnvelope := ⟨.regular 0, .simple ⟨-1, 2 ^ 63⟩, 3, exMsgCell⟩

theorem exEnvelope_ok : msgEnvelope.ok exEnvelope := by
  refine ⟨⟨?_, ?_⟩, ⟨?_, ?_⟩, ?_, ?_⟩ <;> tlb_ok

theorem exEnvelope_encloses : ∃ c, Encloses c 3 exMsgCell := by
  have h := msgEnvelope_sound.stored exEnvelope_ok
  rw [if_pos (by decide +kernel)] at h
  have hn : Tlb.lazyNew (fun _ => true) msgEnvelope exEnvelope = .ok (Tlb.cellOf (msgEnvelope.enc exEnvelope)) := by unfold Tlb.lazyNew; rw [h]; rfl
  exact ⟨_, exEnvelope, (msgEnvelope_sound.lazy_round exEnvelope_ok hn).2, rfl, rfl⟩

theorem exMsgCell_info : Tlb.parseAs msgInfo.load exMsgCell = .ok (.int exCarried) := by
  have hok : msgInfo.ok (.int exCarried) := by
    refine ⟨?_, ⟨trivial, ?_, ?_⟩, ⟨trivial, ?_, ?_⟩, ?_, ?_, ?_, ?_, ?_⟩ <;> tlb_ok
  have hR := (C58_headers.1 _ hok).2
  obtain ⟨w, ct⟩ := Tlb.reader_contents (b := exMsgCell.bits) (r := exMsgCell.refs) (by decide +kernel)
  obtain ⟨s', h1, _⟩ := C58_headers.2.1.reads _ _ hR _ ([false, false], []) w (by rw [ct]; rfl)
  unfold Tlb.parseAs
  rw [if_neg (by decide), if_pos (by decide +kernel), h1]

example : ∃ c, (OutMsg.new ⟨c, exMsgCell⟩).exportedValue = .ok ⟨1023, none⟩ ∧ (InMsg.final ⟨c, exMsgCell, 3⟩).computeFees = .ok (3, ⟨1023, none⟩) ∧
    (InMsg.final ⟨c, exMsgCell, 4⟩).computeFees = .error .invalidData ∧ (InMsg.transit ⟨c, c, 2⟩).computeFees = .ok (2, ⟨1023, none⟩) ∧
    (InMsg.immediate ⟨c, exMsgCell, 0⟩).computeFees = .ok (9, ⟨0, none⟩) := by
  obtain ⟨c, h⟩ := exEnvelope_encloses
  have hv : (OutMsg.new ⟨c, exMsgCell⟩).exportedValue = .ok ⟨1023, none⟩ := (C62_exported h exMsgCell_info).trans (if_pos (by decide))
  exact ⟨c, hv, (C62_imported h _ exMsgCell c hv 3).1.trans (if_pos rfl), (C62_imported h _ exMsgCell c hv 4).1.trans (if_neg (by decide)),
    (C62_imported h _ exMsgCell c hv 2).2.trans (if_pos (by decide)), C62_immediate h exMsgCell_info _ _⟩

end Verif
