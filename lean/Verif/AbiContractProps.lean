import Verif.AbiContractLemmas
import Verif.AbiProps
/-!
# C75: message bodies of contracts come back

Bodies of internal messages, of answers and events, and (from version 2 on) of external messages with a signature are read back as the arguments they were
made of. The full statement, for all functions and arguments that the library accepts, is false: the witnesses are at the end.
-/
set_option linter.unusedVariables false
set_option linter.unusedSimpArgs false
namespace Verif
namespace Abi

/-- The slice over a builder's data, or over an ordinary cell. -/
def bodySlice (b : CellB Cell) : CSlice Cell := Sl.reader ⟨b.inner.bits, b.refs⟩
def cellSlice (c : Cell) : CSlice Cell := Sl.reader ⟨c.bits, c.refs⟩

theorem encode_named {acc : Cell → Bool} {ver : Ver} {id : Nat} {tokens : Items} (ts : Tys) : encodeBody acc ver id (tokens.named ts) = encodeBody acc ver id tokens := by
  unfold encodeBody
  rw [named_tuple, named_writes]

theorem body_named {acc : Cell → Bool} {ver : Ver} (hv : 1 ≤ ver.major) {id : Nat} (hid : id < 2 ^ 32) {tokens : Items} {tys : Tys} (hg : GoodItems ver (tokens.named tys))
    (hr : Regular ver (idTuple id (tokens.named tys))) {b : CellB Cell}
    (h : (if haveTypes tokens tys then encodeBody acc ver id tokens else .error .invalidData) = .ok b) (part : Bool) :
    decodeBody ver part id tys (bodySlice b) = .ok (tokens.named tys) := by
  by_cases ht : haveTypes tokens tys = true
  · rw [if_pos ht, ← encode_named tys] at h
    have := body_round hv hid hg hr h part
    rw [named_types tokens tys ht] at this
    exact this
  · rw [if_neg ht] at h; cases h

/-! ### Internal messages, answers, events -/

/-- **C75.** The arguments of a function, encoded as the body of an internal message, are read back, under the names that the function gives them. Partial: `Good` and
`Regular` are needed as for values (C74). -/
theorem C75_internal_partial (acc : Cell → Bool) (f : Func) (hv : 1 ≤ f.ver.major) (hid : f.inputId < 2 ^ 32) (tokens : Items)
    (hg : GoodItems f.ver (tokens.named f.inputs)) (hr : Regular f.ver (idTuple f.inputId (tokens.named f.inputs))) (b : CellB Cell)
    (h : f.encodeInternal acc tokens = .ok b) (part : Bool) : f.decodeInternal part (bodySlice b) = .ok (tokens.named f.inputs) := body_named hv hid hg hr h part

/-- **C75.** The same for the answer of a function. -/
theorem C75_output_partial (acc : Cell → Bool) (f : Func) (hv : 1 ≤ f.ver.major) (hid : f.outputId < 2 ^ 32) (tokens : Items)
    (hg : GoodItems f.ver (tokens.named f.outputs)) (hr : Regular f.ver (idTuple f.outputId (tokens.named f.outputs))) (b : CellB Cell)
    (h : f.encodeOutput acc tokens = .ok b) (part : Bool) : f.decodeOutput part (bodySlice b) = .ok (tokens.named f.outputs) := body_named hv hid hg hr h part

/-- **C75.** The same for events. -/
theorem C75_event_partial (acc : Cell → Bool) (f : Event) (hv : 1 ≤ f.ver.major) (hid : f.id < 2 ^ 32) (tokens : Items)
    (hg : GoodItems f.ver (tokens.named f.inputs)) (hr : Regular f.ver (idTuple f.id (tokens.named f.inputs))) (b : CellB Cell)
    (h : f.encodeInternal acc tokens = .ok b) (part : Bool) : f.decodeInternal part (bodySlice b) = .ok (tokens.named f.inputs) := body_named hv hid hg hr h part

/-- A body is only accepted if it begins with the id. -/
theorem body_id {ver : Ver} {part : Bool} {id : Nat} {tys : Tys} {s : CSlice Cell} (hs : s.WF) {l : Items} (h : decodeBody ver part id tys s = .ok l) :
    32 ≤ s.bits.length ∧ natOfBits (s.bits.take 32) = id := by
  unfold decodeBody whole at h
  by_cases hb : 32 ≤ s.bits.length
  · obtain ⟨s1, e1, _⟩ := (Rd.takes_u32 (ρ := Cell) s hs).1 hb
    rw [Prog.bind_ok e1] at h
    refine ⟨hb, ?_⟩
    by_cases hx : natOfBits (s.bits.take 32) = id
    · exact hx
    · have : (checkId (natOfBits (s.bits.take 32)) id >>= fun _ => loadItems ver part tys true) s1 = (.error .invalidData, s1) := by
        unfold checkId
        have e : (natOfBits (s.bits.take 32) == id) = false := by rw [beq_eq_false_iff_ne]; exact hx
        rw [e]
        rfl
      rw [this] at h
      cases h
  · have e1 := (Rd.takes_u32 (ρ := Cell) s hs).2 hb
    rw [Prog.bind_err e1] at h
    cases h

/-- **C75.** A body that two functions (or events) accept belongs to functions with one id: whatever the body, an id decides who reads it. -/
theorem C75_one_id (ver ver' : Ver) (part part' : Bool) (id id' : Nat) (tys tys' : Tys) (s : CSlice Cell) (hs : s.WF) (l l' : Items)
    (h : decodeBody ver part id tys s = .ok l) (h' : decodeBody ver' part' id' tys' s = .ok l') : id = id' := (body_id hs h).2.symm.trans (body_id hs h').2

/-- **C75.** Ids computed from signatures: those of inputs and events have the highest bit clear, those of answers have it set, the other bits are those of the hash. -/
theorem C75_ids (h : Nat) (hh : h < 2 ^ 32) : (funcIds none h).1 = h % 2 ^ 31 ∧ (funcIds none h).2 = 2 ^ 31 + h % 2 ^ 31 ∧ eventId none h = h % 2 ^ 31 := by
  have e1 : h &&& 0x7fffffff = h % 2 ^ 31 := Nat.and_two_pow_sub_one_eq_mod h 31
  refine ⟨e1, ?_, e1⟩
  show h ||| 2 ^ 31 = _
  have hd : h = 2 ^ 31 * (h / 2 ^ 31) + h % 2 ^ 31 := (Nat.div_add_mod h (2 ^ 31)).symm
  have hlt : h % 2 ^ 31 < 2 ^ 31 := Nat.mod_lt _ (by decide)
  have hq : h / 2 ^ 31 = 0 ∨ h / 2 ^ 31 = 1 := by omega
  have or1 : ∀ a, a < 2 ^ 31 → a ||| 2 ^ 31 = 2 ^ 31 + a := fun a ha => by
    have := Nat.two_pow_add_eq_or_of_lt ha 1
    simp only [Nat.mul_one] at this
    rw [this, Nat.or_comm]
  rcases hq with hq | hq
  · have : h % 2 ^ 31 = h := by omega
    rw [this]
    exact or1 h (by omega)
  · have e : h = 2 ^ 31 + h % 2 ^ 31 := by omega
    have e2 : h = h % 2 ^ 31 ||| 2 ^ 31 := e.trans (or1 _ hlt).symm
    calc h ||| 2 ^ 31 = (h % 2 ^ 31 ||| 2 ^ 31) ||| 2 ^ 31 := by rw [← e2]
      _ = h % 2 ^ 31 ||| 2 ^ 31 := by rw [Nat.or_assoc, Nat.or_self]
      _ = _ := by rw [or1 _ hlt]

/-- **C75.** With computed ids no body is both a call and an answer, of whatever functions. -/
theorem C75_call_or_answer (f g : Func) (h h' : Nat) (hh : h < 2 ^ 32) (hh' : h' < 2 ^ 32) (hf : (f.inputId, f.outputId) = funcIds none h)
    (hg : (g.inputId, g.outputId) = funcIds none h') (part part' : Bool) (s : CSlice Cell) (hs : s.WF) (l l' : Items) (h1 : f.decodeInternal part s = .ok l)
    (h2 : g.decodeOutput part' s = .ok l') : False := by
  have := C75_one_id _ _ _ _ _ _ _ _ s hs l l' h1 h2
  have e1 : f.inputId = h % 2 ^ 31 := (congrArg Prod.fst hf).trans (C75_ids h hh).1
  have e2 : g.outputId = 2 ^ 31 + h' % 2 ^ 31 := (congrArg Prod.snd hg).trans (C75_ids h' hh').2.1
  have : h % 2 ^ 31 < 2 ^ 31 := Nat.mod_lt _ (by decide)
  omega

/-! ### External messages -/

/-- A list of headers without repetitions leaves room. -/
theorem C75_room (f : Func) (h : Head) (hm : 1 < f.ver.major) (hn : f.headers.Nodup) : f.Room h := by
  obtain ⟨o, ho, ho2⟩ := offset_two hm
  unfold Func.Room headersSize
  rw [ho]
  dsimp only
  have hk : ∀ x : Hdr, x.size f.ver h.pubkey.isSome ≤ (match x with | .time => 64 | .expire => 32 | .pubkey => 257) := by
    intro x
    cases x with
    | time => exact Nat.le_refl _
    | expire => exact Nat.le_refl _
    | pubkey => unfold Hdr.size; dsimp only; split <;> omega
  have hl : f.headers.length ≤ 3 := hn.length_le_of_subset (l₂ := [.time, .expire, .pubkey]) (fun x _ => by cases x <;> simp)
  have key : (f.headers.map (Hdr.size f.ver h.pubkey.isSome)).sum ≤ 353 := by
    generalize f.headers = l at hn hl
    have k1 := hk .time
    have k2 := hk .expire
    have k3 := hk .pubkey
    dsimp only at k1 k2 k3
    rcases l with _ | ⟨a, _ | ⟨b, _ | ⟨c, _ | ⟨d, r⟩⟩⟩⟩
    · exact Nat.zero_le _
    · cases a <;> simp <;> omega
    · cases a <;> cases b <;> simp at hn ⊢ <;> omega
    · cases a <;> cases b <;> cases c <;> simp at hn ⊢ <;> omega
    · simp only [List.length_cons] at hl; omega
  omega

/-- The store of a signature. -/
def sigStore : Option (List Byte) → Wr Cell Unit
  | some sig => Wr.bit true >>= fun _ => Wr.raw sig 512
  | none => Wr.bit false

theorem sig_writes {sig : Option (List Byte)} (hsig : ∀ s, sig = some s → s.length = 64) : Writes (sigStore sig) (sigEnc sig) := by
  cases sig with
  | none => exact (Wr.writes_bit false).writes
  | some s =>
    have := hsig s rfl
    exact (Wr.writes_bit true).writes.bind (w2 := Wr.raw s 512) (Wr.writes_raw (by omega) (by omega)).writes

theorem fill_eq {acc : Cell → Bool} {ver : Ver} (hm : 1 < ver.major) {p : Cell} (hx : p.exotic = false) (sig : Option (List Byte)) :
    fillSignature acc ver p sig = (sigStore sig >>= fun _ => Wr.slice (Sl.reader ⟨p.bits, p.refs⟩) : Wr Cell Unit).toSl >>= buildSl acc := by
  have ha : asSlice p = .ok ⟨p.bits, p.refs⟩ := by unfold asSlice; rw [hx]; rfl
  unfold fillSignature
  rw [if_neg (by omega), ha]
  rfl

theorem fill_spec {acc : Cell → Bool} {ver : Ver} (hm : 1 < ver.major) {p c : Cell} {sig : Option (List Byte)} (hsig : ∀ s, sig = some s → s.length = 64)
    (hp : p.bits.length ≤ 1023 ∧ p.refs.length ≤ 4) (h : fillSignature acc ver p sig = .ok c) :
    p.exotic = false ∧ (sigEnc sig ++ (p.bits, p.refs) : Enc Cell).Fits ∧ c = Tlb.cellOf (sigEnc sig ++ (p.bits, p.refs)) := by
  cases hx : p.exotic with
  | true =>
    unfold fillSignature asSlice at h
    rw [if_neg (by omega), hx] at h
    cases h
  | false =>
    rw [fill_eq hm hx] at h
    obtain ⟨w1, w2⟩ := Tlb.reader_contents (b := p.bits) (r := p.refs) hp
    have hw := (Wr.writes_slice w1).writes
    rw [w2] at hw
    exact ⟨rfl, stored_inv ((sig_writes hsig).bind hw) h⟩

/-- **C75.** From version 2 on: whatever the signature (or none), the arguments of an external message come back. Partial: `Good`, `Regular` as for values; room for headers
(any list of different headers, `C75_room`); version 1 is lost, see below. -/
theorem C75_external_partial (acc acc' : Cell → Bool) (f : Func) (hm : 1 < f.ver.major) (hid : f.inputId < 2 ^ 32) (tokens : Items)
    (hg : GoodItems f.ver (tokens.named f.inputs)) (h : Head) (hk : h.Ok) (hroom : f.Room h) (hr : f.Regular h (tokens.named f.inputs)) (p c : Cell)
    (sig : Option (List Byte)) (hsig : ∀ s, sig = some s → s.length = 64)
    (hp : f.payload acc tokens h true = .ok p) (hc : fillSignature acc' f.ver p sig = .ok c) (part : Bool) :
    f.decodeExternal part (cellSlice c) = .ok (tokens.named f.inputs) := by
  obtain ⟨T, x, G, q0, q1, q2, q3, q4, q5, q6⟩ := payload_pack hm hid hg hk hroom hr hp
  obtain ⟨_, k2, k3⟩ := fill_spec hm hsig ⟨by omega, q6⟩ hc
  obtain ⟨w1, w2⟩ := Tlb.reader_contents (b := c.bits) (r := c.refs) (by rw [k3]; exact k2)
  unfold Func.decodeExternal
  have := read_args (part := part) q1 (head_reads hm h sig hid) w1 (x := x) (G := G) (by
    rw [w2, k3, q3]
    show sigEnc sig ++ (Enc.nil ++ (flatE (List.map (Hdr.enc h) f.headers) ++ Enc.bits (natBits 32 f.inputId)) ++ chainE x G) = _
    rw [Enc.nil_append, ← Enc.append_assoc]) q2 (q4 _)
  rw [q0] at this
  exact this

/-- **C75.** The same for messages that are built without a signature. -/
theorem C75_unsigned_partial (acc : Cell → Bool) (f : Func) (hm : 1 < f.ver.major) (hid : f.inputId < 2 ^ 32) (tokens : Items)
    (hg : GoodItems f.ver (tokens.named f.inputs)) (h : Head) (hk : h.Ok) (hroom : f.Room h) (hr : f.Regular h (tokens.named f.inputs)) (c : Cell)
    (hp : f.payload acc tokens h false = .ok c) (part : Bool) : f.decodeExternal part (cellSlice c) = .ok (tokens.named f.inputs) := by
  obtain ⟨T, x, G, q0, q1, q2, q3, q4, q5, q6⟩ := payload_pack hm hid hg hk hroom hr hp
  obtain ⟨w1, w2⟩ := Tlb.reader_contents (b := c.bits) (r := c.refs) ⟨by omega, q6⟩
  unfold Func.decodeExternal
  have := read_args (part := part) q1 (head_reads hm h none hid) w1 (x := x) (G := G) (by
    rw [w2, q3]
    rfl) q2 (q4 _)
  rw [q0] at this
  exact this

theorem sigEnc_length (sig : Option (List Byte)) : (sigEnc sig).1.length ≤ 513 ∧ (sigEnc sig).2 = [] := by
  cases sig with
  | none => exact ⟨by show 1 ≤ 513; omega, rfl⟩
  | some s =>
    refine ⟨?_, rfl⟩
    show ([true] ++ rawBits s 512).length ≤ 513
    rw [List.length_append, rawBits_length]
    exact Nat.le_refl _

theorem std_short {a : StdAddr} (h : a.Ok) : a.bitLen ≤ 303 := by
  have h1 := h.1
  unfold StdAddr.bitLen
  cases ha : a.anycast with
  | none => show 267 + 0 ≤ 303; omega
  | some c =>
    rw [ha] at h1
    have : c.depth ≤ 31 := h1.2.1
    show 267 + (5 + c.depth) ≤ 303
    omega

theorem rawBits_full {v : List Byte} {n : Nat} (h : v.length = n) : rawBits v (8 * n) = bytesToBits v := by
  unfold rawBits
  rw [if_pos (by omega)]
  exact List.take_of_length_le (by rw [bytesToBits_length]; omega)

/-- **C75.** A payload that could be built can be signed for every address and takes every signature: the room was reserved. -/
theorem C75_fillable_partial (acc : Cell → Bool) (f : Func) (hm : 1 < f.ver.major) (hid : f.inputId < 2 ^ 32) (tokens : Items)
    (hg : GoodItems f.ver (tokens.named f.inputs)) (h : Head) (hk : h.Ok) (hroom : f.Room h) (hr : f.Regular h (tokens.named f.inputs)) (p : Cell)
    (hp : f.payload acc tokens h true = .ok p) :
    (∀ sig : Option (List Byte), (∀ s, sig = some s → s.length = 64) → ∃ c, fillSignature anyCell f.ver p sig = .ok c) ∧
    ∀ a : StdAddr, a.Ok → ∃ c, toSign anyCell f.ver (some a) p = .ok c := by
  obtain ⟨T, x, G, q0, q1, q2, q3, q4, q5, q6⟩ := payload_pack hm hid hg hk hroom hr hp
  have ho : 513 ≤ (payloadOffset f.ver).bits ∧ (f.ver.addressSigned = true → (payloadOffset f.ver).bits = 591) := by
    unfold payloadOffset
    rw [if_neg (by omega)]
    split
    · exact ⟨by decide, fun _ => rfl⟩
    · exact ⟨Nat.le_refl _, fun h => by contradiction⟩
  have hx : p.exotic = false := by rw [q3]; rfl
  have ha : asSlice p = .ok ⟨p.bits, p.refs⟩ := by unfold asSlice; rw [hx]; rfl
  obtain ⟨w1, w2⟩ := Tlb.reader_contents (b := p.bits) (r := p.refs) ⟨by omega, q6⟩
  have hw := (Wr.writes_slice w1).writes
  rw [w2] at hw
  constructor
  · intro sig hsig
    obtain ⟨l1, l2⟩ := sigEnc_length sig
    have hfit : (sigEnc sig ++ (p.bits, p.refs) : Enc Cell).Fits := by
      refine ⟨?_, ?_⟩
      · rw [Enc.append_fst, List.length_append]; dsimp only; omega
      · rw [Enc.append_snd, l2]; exact q6
    refine ⟨Tlb.cellOf (sigEnc sig ++ (p.bits, p.refs)), ?_⟩
    rw [fill_eq hm hx, Wr.toSl_ok ((sig_writes hsig).bind hw) hfit]
    rfl
  · intro a hok
    unfold toSign
    cases hs : f.ver.addressSigned with
    | false => exact ⟨p, rfl⟩
    | true =>
      rw [if_pos rfl]
      dsimp only
      rw [ha]
      obtain ⟨e1, e2⟩ := StdAddr.enc_length (ρ := Cell) hok
      have := ho.2 hs
      have hlen : a.bitLen ≤ 303 := std_short hok
      have hfit : (a.enc ++ (p.bits, p.refs) : Enc Cell).Fits := by
        refine ⟨?_, ?_⟩
        · rw [Enc.append_fst, List.length_append]; dsimp only; omega
        · rw [Enc.append_snd, List.length_append]; dsimp only; omega
      refine ⟨Tlb.cellOf (a.enc ++ (p.bits, p.refs)), ?_⟩
      show (Wr.toSl _ >>= buildSl anyCell) = _
      rw [Wr.toSl_ok ((StdAddr.writes hok).writes.bind (w2 := Wr.slice (Sl.reader ⟨p.bits, p.refs⟩)) hw) hfit]
      rfl

/-- Two encodings of values that are read back by one loader. -/
theorem same_prefix {α : Type} {ld : Rd Cell α} {e e' r r' : Enc Cell} {v v' : α} (h : Reads ld e v) (h' : Reads ld e' v') (hf : (e ++ r : Enc Cell).Fits)
    (heq : e ++ r = e' ++ r') : v = v' := by
  obtain ⟨w1, w2⟩ := Tlb.reader_contents (b := (e ++ r).1) (r := (e ++ r).2) hf
  obtain ⟨s1, k1, _⟩ := h _ r w1 w2
  obtain ⟨s2, k2, _⟩ := h' _ r' w1 (w2.trans heq)
  rw [k1] at k2
  injection k2 with k2 _
  injection k2

theorem Enc.cancel {e r r' : Enc Cell} (h : e ++ r = e ++ r') : r = r' := by
  have h1 : (e ++ r).1 = (e ++ r').1 := by rw [h]
  have h2 : (e ++ r).2 = (e ++ r').2 := by rw [h]
  rw [Enc.append_fst, Enc.append_fst] at h1
  rw [Enc.append_snd, Enc.append_snd] at h2
  exact Prod.ext (List.append_cancel_left h1) (List.append_cancel_left h2)

/-- **C75.** From version 2.3 on the cell that is signed determines the address and the payload: a signature cannot be taken for another contract or call. -/
theorem C75_signed_data (acc acc' : Cell → Bool) (ver : Ver) (hs : ver.addressSigned = true) (a a' : StdAddr) (ha : a.Ok) (ha' : a'.Ok) (p p' c : Cell)
    (hp : p.bits.length ≤ 1023 ∧ p.refs.length ≤ 4) (hp' : p'.bits.length ≤ 1023 ∧ p'.refs.length ≤ 4)
    (h : toSign acc ver (some a) p = .ok c) (h' : toSign acc' ver (some a') p' = .ok c) : a = a' ∧ p = p' := by
  have key : ∀ (acc : Cell → Bool) (a : StdAddr) (p : Cell), a.Ok → p.bits.length ≤ 1023 ∧ p.refs.length ≤ 4 → toSign acc ver (some a) p = .ok c →
      p.exotic = false ∧ (a.enc ++ (p.bits, p.refs) : Enc Cell).Fits ∧ c = Tlb.cellOf (a.enc ++ (p.bits, p.refs)) := by
    intro acc a p ha hp h
    unfold toSign at h
    rw [if_pos hs] at h
    dsimp only at h
    cases hx : p.exotic with
    | true =>
      unfold asSlice at h
      rw [hx] at h
      cases h
    | false =>
      have has : asSlice p = .ok ⟨p.bits, p.refs⟩ := by unfold asSlice; rw [hx]; rfl
      rw [has] at h
      obtain ⟨w1, w2⟩ := Tlb.reader_contents (b := p.bits) (r := p.refs) hp
      have hw := (Wr.writes_slice w1).writes
      rw [w2] at hw
      exact ⟨rfl, stored_inv ((StdAddr.writes ha).writes.bind (w2 := Wr.slice (Sl.reader ⟨p.bits, p.refs⟩)) hw) h⟩
  obtain ⟨k1, k2, k3⟩ := key acc a p ha hp h
  obtain ⟨j1, j2, j3⟩ := key acc' a' p' ha' hp' h'
  have heq : (a.enc ++ (p.bits, p.refs) : Enc Cell) = a'.enc ++ (p'.bits, p'.refs) := by
    rw [k3] at j3
    unfold Tlb.cellOf at j3
    injection j3 with _ j4 j5
    exact Prod.ext j4 j5
  have haa : a = a' := same_prefix (C47_std.1.reads a _ ⟨ha, rfl⟩) (C47_std.1.reads a' _ ⟨ha', rfl⟩) k2 heq
  subst haa
  refine ⟨rfl, ?_⟩
  have := Enc.cancel heq
  cases p
  cases p'
  simp only [Cell.exotic] at k1 j1
  simp only [Cell.bits, Cell.refs, Prod.mk.injEq] at this
  rw [k1, j1, this.1, this.2]

/-- **C75.** From version 2 on a body determines its signature and its payload. -/
theorem C75_filled (acc acc' : Cell → Bool) (ver : Ver) (hm : 1 < ver.major) (p p' c : Cell) (hp : p.bits.length ≤ 1023 ∧ p.refs.length ≤ 4)
    (hp' : p'.bits.length ≤ 1023 ∧ p'.refs.length ≤ 4) (sig sig' : Option (List Byte)) (hsig : ∀ s, sig = some s → s.length = 64)
    (hsig' : ∀ s, sig' = some s → s.length = 64) (h : fillSignature acc ver p sig = .ok c) (h' : fillSignature acc' ver p' sig' = .ok c) : sig = sig' ∧ p = p' := by
  obtain ⟨k1, k2, k3⟩ := fill_spec hm hsig hp h
  obtain ⟨j1, j2, j3⟩ := fill_spec hm hsig' hp' h'
  have heq : (sigEnc sig ++ (p.bits, p.refs) : Enc Cell) = sigEnc sig' ++ (p'.bits, p'.refs) := by
    rw [k3] at j3
    unfold Tlb.cellOf at j3
    injection j3 with _ j4 j5
    exact Prod.ext j4 j5
  have hss : sig = sig' := by
    have h1 : (sigEnc sig ++ (p.bits, p.refs) : Enc Cell).1 = (sigEnc sig' ++ (p'.bits, p'.refs) : Enc Cell).1 := by rw [heq]
    rw [Enc.append_fst, Enc.append_fst] at h1
    cases sig with
    | none =>
      cases sig' with
      | none => rfl
      | some s' => simp [sigEnc, Enc.bits] at h1
    | some s =>
      cases sig' with
      | none => simp [sigEnc, Enc.bits] at h1
      | some s' =>
        have e1 := hsig s rfl
        have e2 := hsig' s' rfl
        change true :: rawBits s 512 ++ _ = true :: rawBits s' 512 ++ _ at h1
        rw [List.cons_append, List.cons_append] at h1
        injection h1 with _ h1
        have h2 := (List.append_inj h1 (by rw [rawBits_length, rawBits_length])).1
        rw [rawBits_full (n := 64) e1, rawBits_full (n := 64) e2] at h2
        rw [bytesToBits_inj h2]
  subst hss
  refine ⟨rfl, ?_⟩
  have := Enc.cancel heq
  cases p
  cases p'
  simp only [Cell.exotic] at k1 j1
  simp only [Cell.bits, Cell.refs, Prod.mk.injEq] at this
  rw [k1, j1, this.1, this.2]

/-! ### Examples -/

def exFunc (ver : Ver) (headers : List Hdr) (id : Option Nat) : Func :=
  { ver := ver, headers := headers, name := "f", inputs := .cons "a" (.uint 800) (.cons "b" .cell (.cons "c" (.tuple (.cons "x" .bool .nil)) .nil)), outputs := .cons "r" .bool .nil,
    inputId := (funcIds id 0xdeadbeef).1, outputId := (funcIds id 0xdeadbeef).2 }

/-- Arguments under other names. -/
def exArgs : Items := .cons "p" (.uint 800 5) (.cons "q" (.cell exCell) (.cons "r" (.tuple (.cons "s" (.bool true) .nil)) .nil))

def exHead : Head := ⟨1700000000123, 1700000060, some (List.replicate 32 7)⟩

theorem exArgs_good (ver : Ver) (headers : List Hdr) (id : Option Nat) : GoodItems ver (exArgs.named (exFunc ver headers id).inputs) := by
  simp only [exArgs, exFunc, Items.named, Val.named, GoodItems, Good, Inside, and_true]
  refine ⟨⟨by decide, by decide, ?_⟩, by simp⟩
  exact Nat.lt_of_lt_of_le (by decide : 5 < 2 ^ 3) (Nat.pow_le_pow_right (by decide) (by decide))

theorem exHead_ok : exHead.Ok := by
  refine ⟨by show 1700000000123 < 2 ^ 64; decide, by show 1700000060 < 2 ^ 32; decide, fun k hk => ?_⟩
  injection hk with hk
  subst hk
  rfl

/-- The bodies exist: two cells (and that of the argument) for the call, three headers and a signature in front. -/
example : ([⟨1, 0⟩, ⟨2, 0⟩, ⟨2, 3⟩] : List Ver).map (fun ver => ((exFunc ver [] none).encodeInternal anyCell exArgs >>= build anyCell).toOption.map (cellCount 9)) = [some 2, some 2, some 2] := by
  decide +kernel
example : ([⟨2, 0⟩, ⟨2, 3⟩] : List Ver).map (fun ver => ((exFunc ver [.pubkey, .time, .expire] none).payload anyCell exArgs exHead true >>= fun p =>
    fillSignature anyCell ver p (some (List.replicate 64 9))).toOption.map (cellCount 9)) = [some 3, some 3] := by decide +kernel

/-- They come back, under the names of the function. -/
example (ver : Ver) (hv : 1 ≤ ver.major) (b : CellB Cell) (h : (exFunc ver [] none).encodeInternal anyCell exArgs = .ok b) (part : Bool) :
    (exFunc ver [] none).decodeInternal part (bodySlice b) = .ok (exArgs.named (exFunc ver [] none).inputs) :=
  C75_internal_partial anyCell _ hv (by show 0xdeadbeef &&& 0x7fffffff < 2 ^ 32; decide) _ (exArgs_good ver [] none) (Or.inr (Or.inl rfl)) b h part

example (ver : Ver) (hm : 1 < ver.major) (p c : Cell) (sig : List Byte) (hs : sig.length = 64)
    (hp : (exFunc ver [.pubkey, .time, .expire] none).payload anyCell exArgs exHead true = .ok p) (hc : fillSignature anyCell ver p (some sig) = .ok c) (part : Bool) :
    (exFunc ver [.pubkey, .time, .expire] none).decodeExternal part (cellSlice c) = .ok (exArgs.named (exFunc ver [] none).inputs) :=
  C75_external_partial anyCell anyCell _ hm (by show 0xdeadbeef &&& 0x7fffffff < 2 ^ 32; decide) _ (exArgs_good ver _ none) exHead exHead_ok
    (C75_room (exFunc ver [.pubkey, .time, .expire] none) _ hm (by show [Hdr.pubkey, .time, .expire].Nodup; decide)) (Or.inr (Or.inl rfl)) p c (some sig) (fun s h => by injection h with h; subst h; exact hs) hp hc part

/-- The hypotheses of `C75_call_or_answer`. -/
example : ((exFunc ⟨2, 0⟩ [] none).inputId, (exFunc ⟨2, 0⟩ [] none).outputId) = funcIds none 0xdeadbeef := rfl

def exAddr (w : Int) : StdAddr := ⟨none, w, List.replicate 32 3⟩

/-- Cells to sign exist and depend on the address. -/
example : (toSign anyCell ⟨2, 3⟩ (some (exAddr 0)) exCell).toOption.map (·.bits.length) = some 268 ∧
    (toSign anyCell ⟨2, 3⟩ (some (exAddr 0)) exCell).toOption.map (·.bits) ≠ (toSign anyCell ⟨2, 3⟩ (some (exAddr (-1))) exCell).toOption.map (·.bits) := by decide +kernel

/-! ### Bodies that do not come back -/

/-- Encoded as an external message without a signature, and read back. -/
def unsignedTrip (f : Func) (tokens : Items) (h : Head) : Except Err Items := f.payload anyCell tokens h false >>= fun c => f.decodeExternal false (cellSlice c)
/-- Encoded as an internal message and read back. -/
def internalTrip (f : Func) (tokens : Items) : Except Err Items := f.encodeInternal anyCell tokens >>= fun b => f.decodeInternal false (bodySlice b)

/-- **C75, violated.** In version 1 a body with a signature does not hold the payload: all payloads give one body. -/
theorem C75_v1_payload_lost (acc : Cell → Bool) (ver : Ver) (h : ver.major = 1) (p p' : Cell) (sig : Option (List Byte)) :
    fillSignature acc ver p sig = fillSignature acc ver p' sig := by
  unfold fillSignature
  rw [if_pos h, if_pos h]

/-- **C75, violated.** So that no function can read it. -/
theorem C75_v1_unreadable (acc : Cell → Bool) (f : Func) (h : f.ver.major = 1) (p c : Cell) (sig : Option (List Byte)) (hc : fillSignature acc f.ver p sig = .ok c) (part : Bool) :
    f.decodeExternal part (cellSlice c) = .error .cellUnderflow := by
  unfold fillSignature at hc
  rw [if_pos h] at hc
  have key : ∀ o : Except Err Cell, (o >>= fun c => (Wr.ref c : Wr Cell Unit).toSl >>= buildSl acc) = .ok c → ∃ d, (Wr.ref d : Wr Cell Unit).toSl >>= buildSl acc = .ok c := by
    intro o ho
    cases o with
    | error e => cases ho
    | ok d => exact ⟨d, ho⟩
  obtain ⟨d, hc⟩ := key _ hc
  obtain ⟨k1, k2⟩ := stored_inv (Wr.writes_ref d).writes hc
  subst k2
  obtain ⟨w1, w2⟩ := Tlb.reader_contents (b := (Tlb.cellOf (Enc.ref d)).bits) (r := (Tlb.cellOf (Enc.ref d)).refs) k1
  have hb : (cellSlice (Tlb.cellOf (Enc.ref d))).bits = [] := congrArg Prod.fst w2
  have e1 := (Rd.takes_u32 (ρ := Cell) _ w1).2 (by
    show ¬ 32 ≤ (cellSlice (Tlb.cellOf (Enc.ref d))).bits.length
    rw [hb]
    decide)
  unfold Func.decodeExternal externalHead whole cellSlice
  rw [if_pos h]
  rw [Prog.bind_assoc', Prog.bind_err e1]

/-- **C75, violated.** In version 1 the headers are written before the id and read after it. -/
theorem C75_v1_headers : (unsignedTrip { exFunc ⟨1, 0⟩ [.expire] none with inputs := .nil } .nil exHead).toOption.isSome = false ∧
    (unsignedTrip { exFunc ⟨1, 0⟩ [] none with inputs := .nil } .nil exHead).toOption.isSome = true ∧
    (unsignedTrip { exFunc ⟨2, 0⟩ [.expire] none with inputs := .nil } .nil exHead).toOption.isSome = true := by decide +kernel

/-- **C75, violated.** A function with an explicit id uses it for calls and answers: an answer is read as a call. -/
theorem C75_explicit_id : ∃ f : Func, (f.inputId, f.outputId) = funcIds (some 5) 0xdeadbeef ∧
    (f.encodeOutput anyCell (.cons "r" (.bool true) .nil) >>= fun b => f.decodeInternal false (bodySlice b)).toOption.isSome = true :=
  ⟨{ exFunc ⟨2, 0⟩ [] (some 5) with inputs := .cons "r" .bool .nil }, rfl, by decide +kernel⟩

/-- **C75, violated.** The types of elements are not checked: arguments that the function does not take are encoded, and refused or changed by the reader. -/
theorem C75_elements_unchecked :
    let f : Func := { exFunc ⟨2, 0⟩ [] none with inputs := .cons "a" (.array (.uint 32)) .nil }
    let bad : Items := .cons "a" (.array (.uint 32) (.cons (.bool true) .nil)) .nil
    haveTypes bad f.inputs = true ∧ (f.encodeInternal anyCell bad).toOption.isSome = true ∧ (internalTrip f bad).toOption.isSome = false := by decide +kernel

/-- **C75, violated.** When headers are repeated, so that they do not fit, the id opens a new cell, where the reader does not look for it. -/
theorem C75_repeated_headers :
    let f : Func := { exFunc ⟨2, 3⟩ [.pubkey, .time, .time, .expire] none with inputs := .nil }
    (f.payload anyCell .nil exHead false).toOption.isSome = true ∧ (unsignedTrip f .nil exHead).toOption.isSome = false := by decide +kernel

/-- **C75, violated.** The expiration of a message for a late time panics (or wraps), and that of a later time lies before it. -/
theorem C75_expire_overflow : expireAt 4294967236000 none = .error .panic ∧ expireAt 4294967300000 none = .ok 64 := by decide +kernel

/-- **C75.** The address is part of what is signed from version 2.3 on, sizes are the largest ones from version 2.2 on (numbering versions as decimals). -/
theorem C75_versions (ver : Ver) (h : ver.minor < 10) : (ver.addressSigned = true ↔ 23 ≤ 10 * ver.major + ver.minor) ∧ (ver.useMax = true ↔ 22 ≤ 10 * ver.major + ver.minor) := by
  unfold Ver.addressSigned Ver.useMax
  rw [decide_eq_true_eq, decide_eq_true_eq]
  omega

example : ([⟨1, 0⟩, ⟨1, 9⟩, ⟨2, 2⟩, ⟨2, 3⟩, ⟨3, 0⟩] : List Ver).map Ver.addressSigned = [false, false, false, true, true] := by decide

end Abi
end Verif
