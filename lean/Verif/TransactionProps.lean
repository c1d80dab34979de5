import Verif.Transaction
import Verif.MessageProps
import Verif.DictMergeProps
import Verif.AccountProps
import Verif.CurrencyProps
/-
C61: transactions.
-/
set_option linter.unusedVariables false
set_option linter.unusedSimpArgs false
namespace Verif

/-! ### Model of the iteration over the outgoing messages -/

/-- The body of `TxOutMsgIter::next` for one value of the dictionary (`models/transaction/mod.rs:189-197`): the value holds a reference to a
cell with the message. Parametrised by the loader of the message. -/
def outMsgOf {α : Type} (load : Rd Cell α) (v : Sl) : Except Err α := (Tlb.childLoad load v.reader).1

/-- `models/transaction/mod.rs:185-205` `TxOutMsgIter::next`: after an error the inner iterator is finished. -/
def outMsgNext {α : Type} (load : Rd Cell α) (it : RawValues) : Option (Except Err α) × RawValues :=
  match it.next with
  | (none, it) => (none, it)
  | (some (.error e), it) => (some (.error e), it)
  | (some (.ok v), it) => match outMsgOf load v with
    | .ok m => (some (.ok m), it)
    | .error e => (some (.error e), { it with status := .broken })

/-- `models/transaction/mod.rs:76-80` `iter_out_msgs` -/
def Transaction.iterOutMsgs (t : Transaction) : RawValues := RawValues.new t.outMsgs 15 false false

/-! ### Specification -/

/-- The outcomes up to the first error, which is included. -/
def upToError {α : Type} : List (Except Err α) → List (Except Err α)
  | [] => []
  | .ok a :: t => .ok a :: upToError t
  | .error e :: _ => [.error e]

/-! ### Lemmas -/

theorem upToError_ok {α : Type} (l : List α) : upToError (l.map (Except.ok (ε := Err))) = l.map .ok := by
  induction l with
  | nil => rfl
  | cons a t ih => rw [List.map_cons, upToError, ih]

theorem yields_done {σ α : Type} {next : σ → Option α × σ} {it : σ} (h : Yields next it []) : (next it).1 = none ∧ Yields next (next it).2 [] := by
  refine ⟨yields_nil h, fun k => ?_⟩
  have := h (k + 1)
  simp only [calls, List.map_nil, List.nil_append, List.take_replicate, Nat.min_self, List.replicate_succ, List.take_succ_cons, List.cons.injEq] at this
  simp only [List.map_nil, List.nil_append, List.take_replicate, Nat.min_self]
  exact this.2

theorem outMsg_yields {α : Type} (load : Rd Cell α) {it : RawValues} {l : List Sl} (h : Yields RawValues.next it (l.map .ok)) :
    Yields (outMsgNext load) it (upToError (l.map (outMsgOf load))) := by
  refine yields_of_step (I := fun it out => (∃ l : List Sl, Yields RawValues.next it (l.map .ok) ∧ out = upToError (l.map (outMsgOf load))) ∨
    (it.status = .broken ∧ out = [])) ?_ ?_ (Or.inl ⟨l, h, rfl⟩)
  · rintro it (⟨l, hl, ho⟩ | ⟨hb, _⟩)
    · cases l with
      | nil =>
        obtain ⟨h1, h2⟩ := yields_done hl
        have e : outMsgNext load it = (none, (RawValues.next it).2) := by
          unfold outMsgNext
          generalize RawValues.next it = out at *
          obtain ⟨a, b⟩ := out
          dsimp only at *
          rw [h1]
        rw [e]
        exact ⟨rfl, Or.inl ⟨[], h2, rfl⟩⟩
      | cons v t =>
        rw [List.map_cons] at ho
        cases hm : outMsgOf load v <;> rw [hm] at ho <;> cases ho
    · have e : outMsgNext load it = (none, it) := by
        unfold outMsgNext RawValues.next
        rw [hb]
      rw [e]
      exact ⟨rfl, Or.inr ⟨hb, rfl⟩⟩
  · rintro it p ps (⟨l, hl, ho⟩ | ⟨_, h⟩)
    · cases l with
      | nil => cases ho
      | cons v t =>
        obtain ⟨h1, h2⟩ := yields_cons hl
        rw [List.map_cons] at ho
        unfold outMsgNext
        generalize RawValues.next it = out at *
        obtain ⟨a, b⟩ := out
        dsimp only at *
        rw [h1]
        dsimp only
        cases hm : outMsgOf load v with
        | ok m =>
          rw [hm] at ho
          obtain ⟨rfl, rfl⟩ := List.cons.inj ho
          exact ⟨rfl, Or.inl ⟨t, h2, rfl⟩⟩
        | error e =>
          rw [hm] at ho
          obtain ⟨rfl, rfl⟩ := List.cons.inj ho
          exact ⟨rfl, Or.inr ⟨rfl, rfl⟩⟩
    · cases h

theorem outMsgOf_cell {α : Type} (load : Rd Cell α) (c : Cell) : outMsgOf load ⟨[], [c]⟩ = Tlb.parseAs load c := by
  obtain ⟨w, ct⟩ := Tlb.reader_contents (b := []) (r := [c]) ⟨by simp, by simp⟩
  obtain ⟨s', h1, _⟩ := Rd.reads_ref c (Sl.reader ⟨[], [c]⟩) Enc.nil w (by rw [ct]; rfl)
  by_cases hx : c.exotic = true
  · have e : Tlb.childSlice (Sl.reader ⟨[], [c]⟩) = (.error .unexpectedExoticCell, Sl.reader ⟨[], [c]⟩) := by
      unfold Tlb.childSlice; rw [h1]; dsimp only; rw [if_pos hx]
    have h : Tlb.childLoad load (Sl.reader ⟨[], [c]⟩) = (.error .unexpectedExoticCell, Sl.reader ⟨[], [c]⟩) := Prog.bind_err e
    unfold outMsgOf Tlb.parseAs
    rw [h, if_pos hx]
  · unfold outMsgOf Tlb.parseAs
    rw [if_neg hx]
    by_cases hf : c.bits.length ≤ 1023 ∧ c.refs.length ≤ 4
    · have e : Tlb.childSlice (Sl.reader ⟨[], [c]⟩) = (.ok (Sl.reader ⟨c.bits, c.refs⟩), s') := by
        unfold Tlb.childSlice; rw [h1]; dsimp only; rw [if_neg hx, if_pos hf]
      have h : Tlb.childLoad load (Sl.reader ⟨[], [c]⟩) = ((load (Sl.reader ⟨c.bits, c.refs⟩)).1, s') := Prog.bind_ok e
      rw [h, if_pos hf]
    · have e : Tlb.childSlice (Sl.reader ⟨[], [c]⟩) = (.error .cellUnderflow, Sl.reader ⟨[], [c]⟩) := by
        unfold Tlb.childSlice; rw [h1]; dsimp only; rw [if_neg hx, if_neg hf]
      have h : Tlb.childLoad load (Sl.reader ⟨[], [c]⟩) = (.error .cellUnderflow, Sl.reader ⟨[], [c]⟩) := Prog.bind_err e
      rw [h, if_neg hf]

/-! ### C61 -/

/-- **C61, codecs.** The stores and loads of transactions, of their descriptions and of all phases agree with their grammar: every value that
can be stored is written in exactly its TL-B form (or `CellOverflow` if and only if there is no room), is loaded from it whatever follows, and
nothing but an encoding of the grammar is ever accepted. -/
theorem C61_codecs (acc : Cell → Bool) : (transaction acc).Sound ∧ (txInfo acc).Sound ∧ (ordinaryTx acc).Sound ∧ (tickTockTx acc).Sound ∧
    hashUpdate.Sound ∧ storagePhase.Sound ∧ creditPhase.Sound ∧ (computePhase acc).Sound ∧ actionPhase.Sound ∧ bouncePhase.Sound :=
  ⟨transaction_sound acc, txInfo_sound acc, ordinaryTx_sound acc, tickTockTx_sound acc, hashUpdate_sound, storagePhase_sound, creditPhase_sound,
    computePhase_sound acc, actionPhase_sound, bouncePhase_sound⟩

/-- **C61, a transaction with its parts.** A transaction whose description and state update were put into cells by `Lazy::new` is stored, and
loading it gives the same transaction; its description and its state update are then loaded from it. -/
theorem C61_round {acc : Cell → Bool} {t : Transaction} (ht : txHead.ok t.head ∧ (txMessages.child acc).ok (t.inMsg, t.outMsgs) ∧ t.totalFees.Ok)
    {i : TxInfo} (hi : (txInfo acc).ok i) (hic : Tlb.lazyNew acc (txInfo acc) i = .ok t.info)
    {u : HashUpdate} (hu : hashUpdate.ok u) (huc : Tlb.lazyNew acc hashUpdate u = .ok t.stateUpdate)
    {b : CellB Cell} (hb : (transaction acc).store t .new = (.ok (), b)) :
    ∃ s, (transaction acc).load b.asSlice = (.ok t, s) ∧ s.contents = Enc.nil ∧ Tlb.lazyLoad (txInfo acc) t.info = .ok i ∧
      Tlb.lazyLoad hashUpdate t.stateUpdate = .ok u := by
  obtain ⟨e1, l1⟩ := (txInfo_sound acc).lazy_round hi hic
  obtain ⟨e2, l2⟩ := hashUpdate_sound.lazy_round hu huc
  obtain ⟨s, q, n⟩ := (transaction_sound acc).round (v := t) ⟨ht.1, ht.2.1, ht.2.2, by rw [e2]; rfl, by rw [e1]; rfl⟩ hb
  exact ⟨s, q, n, l1, l2⟩

/-- **C61, outgoing messages.** The iterator yields the outcome of loading each outgoing message, in the order of the keys, up to the first
error, and then ends for good. -/
theorem C61_out_msgs {α : Type} (load : Rd Cell α) (acc : Cell → Bool) {t : Transaction} {m : DMap} (hd : Represents acc 15 t.outMsgs m) :
    ∃ l, Listing false false 15 m l ∧ Yields (outMsgNext load) t.iterOutMsgs (upToError (l.map fun p => outMsgOf load p.2)) := by
  obtain ⟨l, hl, hy⟩ := C32_values_unsigned_partial acc (by decide) hd false
  refine ⟨l, hl, ?_⟩
  have h : Yields RawValues.next t.iterOutMsgs ((l.map (·.2)).map .ok) := by rw [List.map_map]; exact hy
  have := outMsg_yields load h
  rw [List.map_map] at this
  exact this

/-- **C61, outgoing messages of a well formed transaction.** If every value of the dictionary is just a reference to a cell that parses as a
message (`M k` under the key `k`), the iterator yields exactly these messages, ordered by their keys. -/
theorem C61_out_msgs_all {α : Type} (load : Rd Cell α) (acc : Cell → Bool) {t : Transaction} {m : DMap} (hd : Represents acc 15 t.outMsgs m) (M : Bits → α)
    (hm : ∀ k v, k.length = 15 → m k = some v → ∃ c, v = ⟨[], [c]⟩ ∧ Tlb.parseAs load c = .ok (M k)) :
    ∃ l, Listing false false 15 m l ∧ Yields (outMsgNext load) t.iterOutMsgs (l.map fun p => .ok (M p.1)) := by
  obtain ⟨l, hl, hy⟩ := C61_out_msgs load acc hd
  refine ⟨l, hl, ?_⟩
  have e : l.map (fun p => outMsgOf load p.2) = (l.map fun p => M p.1).map .ok := by
    rw [List.map_map]
    apply List.map_congr_left
    rintro ⟨k, v⟩ hp
    obtain ⟨h1, h2⟩ := (hl.2 k v).1 hp
    obtain ⟨c, rfl, hc⟩ := hm k v h1 h2
    show outMsgOf load ⟨[], [c]⟩ = .ok (M k)
    rw [outMsgOf_cell, hc]
  rw [e, upToError_ok, List.map_map] at hy
  exact hy

/-! ### The hypotheses can be met -/

def exActions : ActionPhase :=
  ⟨(true, true, false), .unchanged, some 1000, some 333, 0, none, (2, 0, 0, 2), List.replicate 32 7, ⟨2, 1500⟩⟩
def exCompute : ExecutedCompute :=
  ⟨true, false, false, 4000000, ⟨4000, 1000000, none, 0, 0, some (-5), 98, List.replicate 32 0, List.replicate 32 0⟩⟩
/-- An ordinary transaction with all phases but the bounce phase. -/
def exTxInfo : TxInfo :=
  .ordinary ⟨true, some ⟨52, none, .unchanged⟩, some ⟨none, ⟨1000000000, none⟩⟩, .executed exCompute, some exActions, false, none, false⟩
def exHashUpdate : HashUpdate := ⟨List.replicate 32 0xaa, List.replicate 32 0xbb⟩

theorem exTxInfo_ok : (txInfo fun _ => true).ok exTxInfo := by
  have hv : (vmResult.child fun _ => true).ok exCompute.vm := by
    refine ⟨⟨?_, ?_, ?_, ?_, ?_, ?_, ?_, ?_, ?_⟩, by decide +kernel, rfl⟩ <;> tlb_ok
  have ha : (actionPhase.child fun _ => true).ok exActions := by
    refine ⟨⟨?_, ?_, ?_, ?_, ?_, ?_, ?_, ?_, ⟨?_, ?_⟩⟩, by decide +kernel, rfl⟩ <;> tlb_ok
  refine ⟨trivial, ⟨?_, ?_, ?_⟩, ⟨?_, ?_⟩, ⟨?_, hv⟩, ha, trivial, trivial, trivial⟩ <;> tlb_ok
theorem exHashUpdate_ok : hashUpdate.ok exHashUpdate := by constructor <;> tlb_ok

/-- Two outgoing messages, kept under the keys 0 and 1. -/
def exOut (b : Bool) : Sl := ⟨[], [.mk false [b, true, b] []]⟩
def exKey (b : Bool) : Bits := List.replicate 14 false ++ [b]
def exOutMsgs : Option Cell := (runHistory (fun _ => true) 15 none [.insert .set (exKey true) (exOut true), .insert .set (exKey false) (exOut false)]).2

def exTx (u i : Cell) : Transaction := ⟨List.replicate 32 0x11, 47244640256, List.replicate 32 0x22, 47244640250, 1700000000, 2, .active, .active,
  some (.mk false [true] []), exOutMsgs, ⟨5000000, none⟩, u, i⟩

theorem exTx_ok (u i : Cell) : txHead.ok (exTx u i).head ∧ (txMessages.child fun _ => true).ok ((exTx u i).inMsg, (exTx u i).outMsgs) ∧ (exTx u i).totalFees.Ok := by
  refine ⟨⟨?_, ?_, ?_, ?_, ?_, ?_, ?_, ?_⟩, ⟨⟨trivial, trivial⟩, ?_, rfl⟩, ?_⟩
  any_goals tlb_ok
  any_goals (simp only [exTx, Transaction.head]; tlb_ok)

theorem exTx_parts : ∃ (t : Transaction) (b : CellB Cell), (txHead.ok t.head ∧ (txMessages.child fun _ => true).ok (t.inMsg, t.outMsgs) ∧ t.totalFees.Ok) ∧
    Tlb.lazyNew (fun _ => true) (txInfo fun _ => true) exTxInfo = .ok t.info ∧ Tlb.lazyNew (fun _ => true) hashUpdate exHashUpdate = .ok t.stateUpdate ∧
    t.outMsgs = exOutMsgs ∧ (transaction fun _ => true).store t .new = (.ok (), b) := by
  have h1 := (txInfo_sound fun _ => true).stored exTxInfo_ok
  rw [if_pos (by decide +kernel)] at h1
  have h2 := hashUpdate_sound.stored exHashUpdate_ok
  rw [if_pos (by decide +kernel)] at h2
  have key : ∀ u i : Cell, (Tlb.lazy false).ok u → (Tlb.lazy false).ok i → ((transaction fun _ => true).enc (exTx u i)).Fits →
      ∃ b, (transaction fun _ => true).store (exTx u i) .new = (.ok (), b) := by
    intro u i hu hi hf
    have ht := exTx_ok u i
    obtain ⟨b, hb, _⟩ := ((transaction_sound fun _ => true).st.writes (exTx u i) ⟨ht.1, ht.2.1, ht.2.2, hu, hi⟩ .new CellB.wf_new).1
      (by rw [show ((.new : CellB Cell).contents ++ (transaction fun _ => true).enc (exTx u i) : Enc Cell) = _ from Enc.nil_append _]; exact hf)
    exact ⟨b, hb⟩
  have key2 : ∀ u i : Cell, (∃ b, (transaction fun _ => true).store (exTx u i) .new = (.ok (), b)) →
      ∃ (t : Transaction) (b : CellB Cell), (txHead.ok t.head ∧ (txMessages.child fun _ => true).ok (t.inMsg, t.outMsgs) ∧ t.totalFees.Ok) ∧
        i = t.info ∧ u = t.stateUpdate ∧ t.outMsgs = exOutMsgs ∧ (transaction fun _ => true).store t .new = (.ok (), b) :=
    fun u i ⟨b, hb⟩ => ⟨_, b, exTx_ok u i, rfl, rfl, rfl, hb⟩
  obtain ⟨t, b, h, e1, e2, e3, hb⟩ := key2 _ _ (key (Tlb.cellOf (hashUpdate.enc exHashUpdate)) (Tlb.cellOf ((txInfo fun _ => true).enc exTxInfo)) rfl rfl (by decide +kernel))
  refine ⟨t, b, h, ?_, ?_, e3, hb⟩
  · unfold Tlb.lazyNew; rw [h1, ← e1]; rfl
  · unfold Tlb.lazyNew; rw [h2, ← e2]; rfl

example : ∃ m, Represents (fun _ => true) 15 exOutMsgs m := by
  obtain ⟨m, _, h⟩ := C22_history (fun _ => true) (by decide : 15 ≤ 1023) _ (C22_empty _ 15)
  exact ⟨m, representsC_any h⟩
/-- The two messages in the order of the keys, here with `load_bit` in the place of the parser. -/
example : calls (outMsgNext Rd.bit) 4 (RawValues.new exOutMsgs 15 false false) = [some (.ok false), some (.ok true), none, none] := by decide +kernel
/-- An error ends the iteration. -/
example : calls (outMsgNext (Rd.bit >>= fun b => if b then pure b else Prog.fail .invalidTag)) 4 (RawValues.new exOutMsgs 15 false false) =
    [some (.error .invalidTag), none, none, none] := by decide +kernel

end Verif
