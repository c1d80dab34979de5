import Verif.AbiCall
/-!
# C89: calls arrive as they were made
-/
set_option linter.unusedVariables false
set_option linter.unusedSimpArgs false
namespace Verif
namespace Abi

/-! ### Specification -/

/-- What the receiver loads from the cell of a message. -/
def received (acc : Cell → Bool) (b : CellB Cell) : Except Err (Msg MsgInfo (SliceRange × Cell)) := (Msg.load fullKind (partsBody acc acc) b.asSlice).1
def receivedInternal (acc : Cell → Bool) (b : CellB Cell) : Except Err (Msg RelaxedMsgInfo (SliceRange × Cell)) := (Msg.load relaxedKind (partsBody acc acc) b.asSlice).1

/-- The 32 bits of the id of a network, if it has one. -/
def idBits : Option Int → Bits
  | some i => natBits 32 (i32ToU32 i)
  | none => []

/-- The cell that a contract at `dst` takes the hash of: from version 2.3 on its address, then all that follows flag and signature in the body. -/
def checkedCell (ver : Ver) (dst : StdAddr) (body : Cell) : Cell :=
  .mk false ((if ver.addressSigned then (dst.enc : Enc Cell).1 else []) ++ body.bits.drop 513) body.refs

/-- The bytes that a contract at `dst` checks the signature against. -/
def checkedData (H : Hasher) (ver : Ver) (id : Option Int) (dst : StdAddr) (body : Cell) : List Byte :=
  packBytes (idBits id ++ bytesToBits ((checkedCell ver dst body).reprHash H))

/-- A contract at `dst` finds a signature in the body that fits. -/
def Accepts (H : Hasher) (verify : List Byte → List Byte → Prop) (ver : Ver) (id : Option Int) (dst : StdAddr) (body : Cell) : Prop :=
  body.bits.head? = some true ∧ 513 ≤ body.bits.length ∧ verify (checkedData H ver id dst body) (packBytes ((body.bits.drop 1).take 512))

/-- What stands in the place of a header. -/
inductive HdrValue
  | time (ms : Nat) | expire (s : Nat) | pubkey (k : Option (List Byte))
  deriving DecidableEq

/-- The value of a header: time in milliseconds, time of expiration in seconds, public key if there is one. -/
def Head.value (h : Head) : Hdr → HdrValue
  | .time => .time h.time
  | .expire => .expire h.expire
  | .pubkey => .pubkey h.pubkey

/-- How a contract reads a key that is there or not. -/
def readKey (b : Bool) : Rd Cell HdrValue := if b then Rd.u256 >>= fun k => Pure.pure (.pubkey (some k)) else Pure.pure (.pubkey none)

/-- How a contract reads a header. -/
def Hdr.read : Hdr → Rd Cell HdrValue
  | .time => Rd.u64 >>= fun x => Pure.pure (.time x)
  | .expire => Rd.u32 >>= fun x => Pure.pure (.expire x)
  | .pubkey => Rd.bit >>= readKey

/-- How a contract reads its headers. -/
def readHeaders : List Hdr → Rd Cell (List HdrValue)
  | [] => Pure.pure []
  | x :: r => x.read >>= fun v => readHeaders r >>= fun l => Pure.pure (v :: l)

/-- How a contract reads a signature that is there or not. -/
def readSigRest (b : Bool) : Rd Cell (Option (List Byte)) := if b then Rd.checkedRaw 512 >>= fun s => Pure.pure (some s) else Pure.pure none

/-- How a contract reads the signature of a body. -/
def readSig : Rd Cell (Option (List Byte)) := Rd.bit >>= readSigRest

/-- How a contract reads a body: signature, headers and the id of the function. -/
def readBody (l : List Hdr) : Rd Cell (Option (List Byte) × List HdrValue × Nat) :=
  readSig >>= fun sig => readHeaders l >>= fun h => Rd.u32 >>= fun id => Pure.pure (sig, h, id)

/-! ### Lemmas -/

theorem bytes_of_natBits32 (n : Nat) (h : n < 2 ^ 32) : bytesToBits ([24, 16, 8, 0].map fun k => BitVec.ofNat 8 (n >>> k)) = natBits 32 n := by
  have e : bytesToBits ([24, 16, 8, 0].map fun k => BitVec.ofNat 8 (n >>> k)) = natBits 8 (n / 2 ^ 24) ++ (natBits 8 (n / 2 ^ 16) ++ (natBits 8 (n / 2 ^ 8) ++ natBits 8 n)) := by
    have : ∀ k, bytesToBits [BitVec.ofNat 8 (n >>> k)] = natBits 8 (n / 2 ^ k) := by
      intro k
      rw [Big.bytesToBits_single, BitVec.toNat_ofNat, Nat.shiftRight_eq_div_pow]
      exact Wr.natBits_mod (Nat.le_refl 8)
    have h4 : [24, 16, 8, 0].map (fun k => BitVec.ofNat 8 (n >>> k)) = [BitVec.ofNat 8 (n >>> 24)] ++ ([BitVec.ofNat 8 (n >>> 16)] ++ ([BitVec.ofNat 8 (n >>> 8)] ++ [BitVec.ofNat 8 (n >>> 0)])) := rfl
    rw [h4, bytesToBits_append, bytesToBits_append, bytesToBits_append, this, this, this, this, Nat.pow_zero, Nat.div_one]
  rw [e, show (32 : Nat) = 8 + (8 + (8 + 8)) from rfl, natBits_split, natBits_split, natBits_split]

theorem i32ToU32_lt (i : Int) : i32ToU32 i < 2 ^ 32 := by
  unfold i32ToU32
  omega

theorem extend_eq (d : List Byte) (id : Option Int) : extendWithId d id = packBytes (idBits id ++ bytesToBits d) := by
  cases id with
  | none => exact (pack_unpack d).symm
  | some i =>
    show i32be i ++ d = packBytes (natBits 32 (i32ToU32 i) ++ bytesToBits d)
    rw [← bytes_of_natBits32 _ (i32ToU32_lt i)]
    have : bytesToBits (i32be i) ++ bytesToBits d = bytesToBits (i32be i ++ d) := (bytesToBits_append _ _).symm
    unfold i32be at this
    rw [this, pack_unpack]
    rfl

theorem build_acc {acc : Cell → Bool} {s : Sl} {c : Cell} (h : buildSl acc s = .ok c) : acc c = true ∧ c.exotic = false := by
  unfold buildSl at h
  split at h
  · rename_i ha
    injection h with h
    subst h
    exact ⟨ha, rfl⟩
  · cases h

theorem bind_inv {α β : Type} {x : Except Err α} {f : α → Except Err β} {b : β} (h : x >>= f = .ok b) : ∃ a, x = .ok a ∧ f a = .ok b := by
  cases x with
  | error e => cases h
  | ok a => exact ⟨a, rfl, h⟩

theorem fill_acc {acc : Cell → Bool} {ver : Ver} (hm : 1 < ver.major) {p c : Cell} {sig : Option (List Byte)} (h : fillSignature acc ver p sig = .ok c) :
    acc c = true ∧ c.exotic = false := by
  unfold fillSignature at h
  rw [if_neg (by omega)] at h
  obtain ⟨_, _, h⟩ := bind_inv h
  obtain ⟨_, _, h⟩ := bind_inv h
  exact build_acc h

theorem payload_acc {acc : Cell → Bool} {f : Func} {tokens : Items} {h : Head} {signed : Bool} {c : Cell} (hp : f.payload acc tokens h signed = .ok c) :
    acc c = true ∧ c.exotic = false := by
  unfold Func.payload at hp
  split at hp
  · obtain ⟨_, _, hp⟩ := bind_inv hp
    obtain ⟨_, _, hp⟩ := bind_inv hp
    obtain ⟨_, _, hp⟩ := bind_inv hp
    obtain ⟨_, _, hp⟩ := bind_inv hp
    exact build_acc hp
  · cases hp

theorem parts_full (k : Cell) (hx : k.exotic = false) : partsContents (fullRange k, k) = (k.bits, k.refs) ∧ Tlb.cellOf (partsContents (fullRange k, k)) = k := by
  have : partsContents (fullRange k, k) = (k.bits, k.refs) := by
    unfold partsContents fullRange
    simp
  refine ⟨this, ?_⟩
  rw [this]
  cases k
  simp only [Cell.exotic] at hx
  subst hx
  rfl

theorem partsOk_full {acc : Cell → Bool} {k : Cell} (hx : k.exotic = false) (ha : acc k = true) (hs : k.bits.length ≤ 1023 ∧ k.refs.length ≤ 4) (c : Bool) :
    partsOk acc acc c (fullRange k, k) := by
  refine ⟨⟨Nat.zero_le _, Nat.le_refl _, Nat.zero_le _, Nat.le_refl _⟩, hs, fun _ => ⟨hx, ?_⟩, fun _ h => absurd rfl h⟩
  rw [(parts_full k hx).2]
  exact ha

theorem partsCell_full {k : Cell} (hx : k.exotic = false) (c : Bool) : partsCell c (fullRange k, k) = k := by
  unfold partsCell
  split
  · rfl
  · exact (parts_full k hx).2

theorem zero_tokens : Tlb.tokens.ok 0 := by
  show (0 : Nat) ≤ _
  exact Nat.zero_le _

/-- A state init that can be stored, also in a cell of its own. -/
def PlacedInit (acc : Cell → Bool) (init : Option StateInit) : Prop := ∀ s, init = some s → stateInit.ok s ∧ (stateInit.child acc).ok s

theorem extIn_ok {acc : Cell → Bool} {a : StdAddr} (ha : a.Ok) {init : Option StateInit} (hi : PlacedInit acc init) {k : Cell} (hx : k.exotic = false) (hk : acc k = true)
    (hs : k.bits.length ≤ 1023 ∧ k.refs.length ≤ 4) (l : Layout) : (extInMsg a init k).Ok acc fullKind (partsOk acc acc) l where
  info := ⟨trivial, ha, zero_tokens⟩
  init s h := by
    have := hi s h
    show if l.initToCell then _ else _
    split
    · exact this.2
    · exact this.1
  body := partsOk_full hx hk hs _

/-- External messages of calls are always stored, and are received as they are. -/
theorem extIn_arrives {acc : Cell → Bool} {a : StdAddr} (ha : a.Ok) {init : Option StateInit} (hi : PlacedInit acc init) {k : Cell} (hx : k.exotic = false) (hk : acc k = true)
    (hs : k.bits.length ≤ 1023 ∧ k.refs.length ≤ 4) : ∃ b l, (extInMsg a init k).store acc fullKind (partsBody acc acc) .new = (.ok (), b) ∧
      received acc b = .ok ⟨.extIn ⟨none, .std a, 0⟩, init, (fullRange k, k), some l⟩ := by
  obtain ⟨_, _, hst⟩ := (C59_layout_partial acc acc).2.1.external (extInMsg a init k) rfl (extIn_ok ha hi hx hk hs) rfl
  obtain ⟨b, hb⟩ := hst ⟨⟨true, true⟩, by
    have hz := extIn_size (a := ⟨none, .std a, 0⟩) (extIn_ok ha hi hx hk hs ⟨true, true⟩).info
    have hn := intAddr_len_le (a := .std a) ha
    have ht := tokens_len_le 0
    have h1 : (ExtInInfo.bitLen ⟨none, .std a, 0⟩) ≤ 730 := by
      show 2 + 2 + IntAddr.bitLen (.std a) + VarKind.tokens.unwrapBitLen 0 ≤ 730
      omega
    have he : (fullKind.tlb.enc (.extIn ⟨none, .std a, 0⟩)) = Enc.bits [true, false] ++ extIn.enc ⟨none, .std a, 0⟩ := rfl
    have hi : (initEnc ⟨true, true⟩ init).1.length ≤ 2 ∧ (initEnc ⟨true, true⟩ init).2.length ≤ 1 := by
      cases init with
      | none => exact ⟨by decide, by decide⟩
      | some s => exact ⟨Nat.le_refl 2, Nat.le_refl 1⟩
    constructor
    · show (fullKind.tlb.enc (.extIn ⟨none, .std a, 0⟩) ++ (initEnc ⟨true, true⟩ init ++ (Enc.bits [true] ++ Enc.ref (partsCell true (fullRange k, k))))).1.length ≤ 1023
      rw [he]
      simp only [Enc.append_fst, List.length_append]
      show 2 + _ + (_ + (1 + 0)) ≤ 1023
      omega
    · show (fullKind.tlb.enc (.extIn ⟨none, .std a, 0⟩) ++ (initEnc ⟨true, true⟩ init ++ (Enc.bits [true] ++ Enc.ref (partsCell true (fullRange k, k))))).2.length ≤ 4
      rw [he]
      simp only [Enc.append_snd, List.length_append]
      show 0 + _ + (_ + (0 + 1)) ≤ 4
      omega⟩
  obtain ⟨body', s, h1, h2, _⟩ := (C58_messages acc acc).2.1.round (extInMsg a init k) (extIn_ok ha hi hx hk hs _) b hb
  have h2 : body' = _ := h2
  rw [show (extInMsg a init k).body = (fullRange k, k) from rfl, partsCell_full hx] at h2
  rw [h2] at h1
  exact ⟨b, _, hb, congrArg Prod.fst h1⟩

/-! ### Bodies -/

/-- The headers of a call: the given time (else the clock), the given time of expiration (else a minute later), the given key. The conditions of `C75`: version 2 or later, values that come back (`Good`, `Regular`), headers that have room (any list of different headers, `C75_room`). -/
structure Call.Fine (now : Nat) (c : Call) (h : Head) : Prop where
  major : 1 < c.func.ver.major
  id : c.func.inputId < 2 ^ 32
  good : GoodItems c.func.ver (c.tokens.named c.func.inputs)
  time : h.time = c.time.getD now
  expire : h.expire = c.expireAt.getD (h.time / 1000 + 60)
  pubkey : h.pubkey = c.pubkey
  ok : h.Ok
  room : c.func.Room h
  regular : c.func.Regular h (c.tokens.named c.func.inputs)

theorem Call.Fine.head {now : Nat} {c : Call} {h : Head} (hc : c.Fine now h) : c.head now = .ok h := by
  obtain ⟨t, e, k⟩ := h
  have h1 : t = c.time.getD now := hc.time
  have h2 : e = c.expireAt.getD (t / 1000 + 60) := hc.expire
  have h3 : k = c.pubkey := hc.pubkey
  have h4 : e < 2 ^ 32 := hc.ok.expire
  unfold Call.head Verif.Abi.expireAt
  rw [← h1, ← h3]
  cases hx : c.expireAt with
  | some x => rw [hx] at h2; rw [show e = x from h2]; rfl
  | none =>
    rw [hx] at h2
    have h5 : e = t / 1000 + 60 := h2
    have h6 : t / 1000 % 2 ^ 32 = t / 1000 := Nat.mod_eq_of_lt (by omega)
    dsimp only
    rw [h6, if_pos (by omega), h5]
    rfl

theorem Hdr.read_reads {h : Head} (hk : h.Ok) (x : Hdr) : Reads x.read (x.enc h) (h.value x) := by
  cases x with
  | time => exact reads_map ((Rd.takes_u64 (ρ := Cell)).reads_nat hk.time) HdrValue.time
  | expire => exact reads_map ((Rd.takes_u32 (ρ := Cell)).reads_nat hk.expire) HdrValue.expire
  | pubkey =>
    unfold Hdr.read Hdr.enc Head.value
    dsimp only
    cases hp : h.pubkey with
    | none => exact ((Rd.reads_bit false).bind (f := readKey) (e2 := Enc.nil) (Reads.pure (HdrValue.pubkey none))).cast (Enc.append_nil _)
    | some k =>
      have hl := hk.pubkey k hp
      dsimp only
      rw [show rawBits k 256 = bytesToBits k from rawBits_full (n := 32) hl]
      exact (Rd.reads_bit true).bind (f := readKey) (reads_map (Rd.reads_u256 hl) fun k => HdrValue.pubkey (some k))

theorem readHeaders_reads {h : Head} (hk : h.Ok) : ∀ l : List Hdr, Reads (readHeaders l) (flatE (l.map (Hdr.enc h))) (l.map h.value)
  | [] => Reads.pure _
  | x :: r => (x.read_reads hk).bind (reads_map (readHeaders_reads hk r) fun l => h.value x :: l)

theorem sig_holds {s : List Byte} (hl : s.length = 64) : HoldsBits s 512 ∧ rawBits s 512 = firstBits s 512 := by
  have hh : HoldsBits s 512 := by
    have := (holds_pack (bytesToBits s)).1
    rw [pack_unpack, bytesToBits_length, hl] at this
    exact this
  exact ⟨hh, hh.packs.2.2⟩

theorem readBody_reads {h : Head} (hk : h.Ok) (l : List Hdr) {id : Nat} (hid : id < 2 ^ 32) {sig : Option (List Byte)} (hs : ∀ s, sig = some s → s.length = 64) :
    Reads (readBody l) (sigEnc sig ++ (flatE (l.map (Hdr.enc h)) ++ Enc.bits (natBits 32 id))) (sig, l.map h.value, id) := by
  have tail : ∀ sig : Option (List Byte), Reads (readHeaders l >>= fun h => Rd.u32 >>= fun id => Pure.pure (sig, h, id)) (flatE (l.map (Hdr.enc h)) ++ Enc.bits (natBits 32 id)) (sig, l.map h.value, id) :=
    fun sig => (readHeaders_reads hk l).bind (reads_map (reads_id hid) fun id => (sig, l.map h.value, id))
  have flag : Reads readSig (sigEnc sig) sig := by
    unfold readSig
    cases sig with
    | none => exact ((Rd.reads_bit false).bind (f := readSigRest) (e2 := Enc.nil) (Reads.pure none)).cast (Enc.append_nil _)
    | some s =>
      obtain ⟨hh, e⟩ := sig_holds (hs s rfl)
      unfold sigEnc
      dsimp only
      rw [e]
      have hn : 512 ≤ 1023 := by omega
      exact (Rd.reads_bit true).bind (f := readSigRest) (reads_map (reads_checkedRaw hn hh) some)
  exact flag.bind (f := fun sig => readHeaders l >>= fun h => Rd.u32 >>= fun id => Pure.pure (sig, h, id)) (tail sig)

theorem call_payload {acc : Cell → Bool} {now : Nat} {c : Call} {h : Head} (hc : c.Fine now h) {signed : Bool} {e : Nat} {p : Cell}
    (hp : c.payload acc now signed = .ok (e, p)) : e = h.expire ∧ c.func.payload acc c.tokens h signed = .ok p := by
  unfold Call.payload at hp
  split at hp
  case isFalse => cases hp
  obtain ⟨h', hh, hp⟩ := bind_inv hp
  rw [hc.head] at hh
  injection hh with hh
  subst hh
  obtain ⟨p', hp2, he⟩ := bind_inv hp
  injection he with he
  injection he with he1 he2
  subst he1 he2
  exact ⟨rfl, hp2⟩

/-- A signed body: what is in it, and that its hash is the one that a contract at the address checks. -/
theorem signed_body {H : Hasher} {acc : Cell → Bool} {now : Nat} {c : Call} {h : Head} (hc : c.Fine now h) {a : StdAddr} (ha : a.Ok) {u : Unsigned}
    (hu : c.inputExt H acc now (some a) = .ok u) {sig : Option (List Byte)} (hs : ∀ s, sig = some s → s.length = 64) {k : Cell} (hk : u.fill acc sig = .ok k) :
    u.expire = h.expire ∧ (∀ part, c.func.decodeExternal part (cellSlice k) = .ok (c.tokens.named c.func.inputs)) ∧
    (readBody c.func.headers (cellSlice k)).1 = .ok (sig, c.func.headers.map h.value, c.func.inputId) ∧
    acc k = true ∧ k.exotic = false ∧ (k.bits.length ≤ 1023 ∧ k.refs.length ≤ 4) ∧ u.ver = c.func.ver ∧
    ∀ s, sig = some s → k.bits.head? = some true ∧ 513 ≤ k.bits.length ∧ packBytes ((k.bits.drop 1).take 512) = s ∧ u.hash = (checkedCell c.func.ver a k).reprHash H := by
  unfold Call.inputExt at hu
  obtain ⟨⟨e, p⟩, hp0, hu⟩ := bind_inv hu
  obtain ⟨q, hq, hu⟩ := bind_inv hu
  injection hu with hu
  subst hu
  obtain ⟨he1, hp⟩ := call_payload hc hp0
  subst he1
  have hkk : fillSignature acc c.func.ver p sig = .ok k := hk
  obtain ⟨T, x, G, q0, q1, q2, q3, q4, q5, q6⟩ := payload_pack hc.major hc.id hc.good hc.ok hc.room hc.regular hp
  have hps : p.bits.length ≤ 1023 ∧ p.refs.length ≤ 4 := ⟨by omega, q6⟩
  obtain ⟨k1, k2, k3⟩ := fill_spec hc.major hs hps hkk
  obtain ⟨a1, a2⟩ := fill_acc hc.major hkk
  have hks : k.bits = (sigEnc sig).1 ++ p.bits ∧ k.refs = (sigEnc sig).2 ++ p.refs := by rw [k3]; exact ⟨rfl, rfl⟩
  have hkfit : k.bits.length ≤ 1023 ∧ k.refs.length ≤ 4 := by rw [k3]; exact k2
  refine ⟨rfl, fun part => C75_external_partial acc acc c.func hc.major hc.id c.tokens hc.good h hc.ok hc.room hc.regular p k sig hs hp hkk part, ?_, a1, a2, hkfit, rfl, ?_⟩
  · obtain ⟨w1, w2⟩ := Tlb.reader_contents (b := k.bits) (r := k.refs) hkfit
    obtain ⟨s', r, _⟩ := readBody_reads hc.ok c.func.headers hc.id hs _ (chainE x G) w1 (by
      rw [w2, k3, q3]
      show sigEnc sig ++ (Enc.nil ++ (flatE (List.map (Hdr.enc h) c.func.headers) ++ Enc.bits (natBits 32 c.func.inputId)) ++ chainE x G) = _
      rw [Enc.nil_append, ← Enc.append_assoc])
    exact congrArg Prod.fst r
  · intro s hsg
    subst hsg
    have hl := hs s rfl
    have e1 : (sigEnc (some s)).1 = true :: bytesToBits s := by
      show [true] ++ rawBits s 512 = _
      rw [show rawBits s 512 = bytesToBits s from rawBits_full (n := 64) hl]
      rfl
    have hlen : (bytesToBits s).length = 512 := by rw [bytesToBits_length, hl]
    rw [e1] at hks
    have hd : k.bits.drop 513 = p.bits := by
      rw [hks.1, List.cons_append, List.drop_succ_cons, List.drop_append_of_le_length (by omega), ← hlen, List.drop_length, List.nil_append]
    refine ⟨by rw [hks.1]; rfl, by rw [hks.1]; simp only [List.length_append, List.length_cons, hlen]; omega, ?_, ?_⟩
    · rw [hks.1, List.cons_append, List.drop_succ_cons, List.drop_zero, List.take_append_of_le_length (by omega), List.take_of_length_le (by omega), pack_unpack]
    · show q.reprHash H = _
      have hr : k.refs = p.refs := hks.2
      unfold checkedCell
      rw [hd, hr]
      unfold toSign at hq
      by_cases hv : c.func.ver.addressSigned = true
      · rw [if_pos hv] at hq
        have has : asSlice p = .ok ⟨p.bits, p.refs⟩ := by unfold asSlice; rw [k1]; rfl
        dsimp only at hq
        rw [has] at hq
        obtain ⟨w1, w2⟩ := Tlb.reader_contents (b := p.bits) (r := p.refs) hps
        have hw := (Wr.writes_slice w1).writes
        rw [w2] at hw
        obtain ⟨_, hqc⟩ := stored_inv ((StdAddr.writes ha).writes.bind (w2 := Wr.slice (Sl.reader ⟨p.bits, p.refs⟩)) hw) hq
        rw [hqc, if_pos hv]
        have := ((C47_std (ρ := Cell)).2 a ha).2.2
        show (Cell.mk false ((a.enc : Enc Cell).1 ++ p.bits) ((a.enc : Enc Cell).2 ++ p.refs)).reprHash H = _
        rw [this]
        rfl
      · rw [if_neg hv] at hq
        injection hq with hq
        subst hq
        rw [if_neg hv, List.nil_append]
        cases p
        simp only [Cell.exotic] at k1
        subst k1
        rfl

theorem body_wf {acc : Cell → Bool} {ver : Ver} (hv : 1 ≤ ver.major) {id : Nat} (hid : id < 2 ^ 32) {tokens : Items} (hg : GoodItems ver tokens)
    (hr : Regular ver (idTuple id tokens)) {b : CellB Cell} (h : encodeBody acc ver id tokens = .ok b) : b.WF := by
  unfold encodeBody at h
  obtain ⟨s1, h1, h⟩ := bind_inv h
  obtain ⟨s2, h2, h⟩ := bind_inv h
  obtain ⟨f1, p1⟩ := uint_item (by decide) (by decide) hid (ready_start _) h1
  obtain ⟨T, f2, p2⟩ := writtenItems hv tokens hg s1 s2 (p1.ready (ready_start _)) h2
  have f3 : FlatItems ver (.cons "" (.uint 32 id) tokens) _ := flat_cons f1 f2
  have f4 : Flat ver (idTuple id tokens) _ := flat_tuple (by simp) f3
  have hac : Acct ver 0 _ ((idTuple id tokens).size ver) := acct_of hv f4 hr
  unfold idTuple at hac
  rw [tuple_size] at hac
  obtain ⟨x, G, k1, k2, _⟩ := packedAt (o := 0) hv f4.sizes.ok (by simp) (fun i T' hi => by
    injection hi with hi _
    subst hi
    show 0 + 32 ≤ 1023
    omega) (fun _ => by simp [sumBits, sumRefs]) hac (p1.append p2) h
  exact k1.wf

theorem addr_inj {a a' : StdAddr} (ha : a.Ok) (ha' : a'.Ok) {r r' : Bits} (h : (a.enc : Enc Cell).1 ++ r = (a'.enc : Enc Cell).1 ++ r') (hr : r = r') : a = a' := by
  subst hr
  have h := List.append_cancel_right h
  obtain ⟨_, l1, e1⟩ := (C47_std (ρ := Cell)).2 a ha
  obtain ⟨_, l2, e2⟩ := (C47_std (ρ := Cell)).2 a' ha'
  have hl := std_short ha
  refine same_prefix (r := Enc.nil) (r' := Enc.nil) ((C47_std (ρ := Cell)).1.reads a _ ⟨ha, rfl⟩) ((C47_std (ρ := Cell)).1.reads a' _ ⟨ha', rfl⟩) ?_ ?_
  · rw [Enc.append_nil]
    exact ⟨by rw [l1]; omega, by rw [e1]; exact Nat.zero_le _⟩
  · rw [Enc.append_nil, Enc.append_nil]
    exact Prod.ext h (e1.trans e2.symm)

/-! ### C89 -/

/-- **C89.** A signed call by an external message. If the message could be made and signed, it can be stored; whoever loads it finds the address, the state init and a body
from which the arguments, the headers (with the reported time of expiration) and the signature are read; the contract at this address accepts the signature, for the
network the message was signed for. Partial: the conditions of `C75` (`Fine`). -/
theorem C89_signed_partial (H : Hasher) (acc : Cell → Bool) (now : Nat) (c : Call) (h : Head) (hc : c.Fine now h) (a : StdAddr) (ha : a.Ok) (u : UnsignedMsg)
    (hu : c.message H acc now a = .ok u) (init : Option StateInit) (hi : PlacedInit acc init) (key : List Byte → List Byte) (verify : List Byte → List Byte → Prop)
    (hkey : ∀ d, (key d).length = 64 ∧ verify d (key d)) (id : Option Int) (m : Msg MsgInfo (SliceRange × Cell)) (hm : (u.setInit init).sign acc key id = .ok m) :
    u.body.expire = h.expire ∧ ∃ b l k, m.store acc fullKind (partsBody acc acc) .new = (.ok (), b) ∧
      received acc b = .ok ⟨.extIn ⟨none, .std a, 0⟩, init, (fullRange k, k), some l⟩ ∧
      (∀ part, c.func.decodeExternal part (cellSlice k) = .ok (c.tokens.named c.func.inputs)) ∧
      (∃ s, (readBody c.func.headers (cellSlice k)).1 = .ok (some s, c.func.headers.map h.value, c.func.inputId)) ∧
      Accepts H verify c.func.ver id a k ∧ (c.func.ver.addressSigned = false → ∀ a', Accepts H verify c.func.ver id a' k) := by
  unfold Call.message at hu
  obtain ⟨ub, hub, hu⟩ := bind_inv hu
  injection hu with hu
  subst hu
  unfold UnsignedMsg.sign UnsignedMsg.fill at hm
  obtain ⟨k, hk, hm⟩ := bind_inv hm
  injection hm with hm
  subst hm
  obtain ⟨e1, e2, e3, e4, e5, e6, e7, e8⟩ := signed_body hc ha hub (sig := some (key (extendWithId ub.hash id))) (fun s hs => by injection hs with hs; subst hs; exact (hkey _).1) hk
  obtain ⟨b, l, h1, h2⟩ := extIn_arrives ha hi e5 e4 e6
  obtain ⟨g1, g2, g3, g4⟩ := e8 _ rfl
  have hacc : ∀ a', (checkedCell c.func.ver a' k).reprHash H = ub.hash → Accepts H verify c.func.ver id a' k := by
    intro a' he
    refine ⟨g1, g2, ?_⟩
    rw [g3]
    unfold checkedData
    rw [he, ← extend_eq]
    exact (hkey _).2
  refine ⟨e1, b, l, k, h1, h2, e2, ⟨_, e3⟩, hacc a g4.symm, fun hv a' => hacc a' ?_⟩
  rw [g4]
  unfold checkedCell
  rw [hv]
  rfl

/-- **C89.** The same for a call without a signature. -/
theorem C89_unsigned_partial (acc : Cell → Bool) (now : Nat) (c : Call) (h : Head) (hc : c.Fine now h) (a : StdAddr) (ha : a.Ok) (e : Nat)
    (m : Msg MsgInfo (SliceRange × Cell)) (hm : c.messageUnsigned acc now a = .ok (e, m)) :
    e = h.expire ∧ ∃ b l k, m.store acc fullKind (partsBody acc acc) .new = (.ok (), b) ∧
      received acc b = .ok ⟨.extIn ⟨none, .std a, 0⟩, none, (fullRange k, k), some l⟩ ∧
      (∀ part, c.func.decodeExternal part (cellSlice k) = .ok (c.tokens.named c.func.inputs)) ∧
      (readBody c.func.headers (cellSlice k)).1 = .ok (none, c.func.headers.map h.value, c.func.inputId) := by
  unfold Call.messageUnsigned at hm
  obtain ⟨⟨e', p⟩, hp0, hm⟩ := bind_inv hm
  injection hm with hm
  injection hm with hm1 hm2
  subst hm1 hm2
  obtain ⟨he, hp⟩ := call_payload hc hp0
  obtain ⟨a1, a2⟩ := payload_acc hp
  obtain ⟨T, x, G, q0, q1, q2, q3, q4, q5, q6⟩ := payload_pack hc.major hc.id hc.good hc.ok hc.room hc.regular hp
  have hps : p.bits.length ≤ 1023 ∧ p.refs.length ≤ 4 := ⟨by omega, q6⟩
  obtain ⟨b, l, h1, h2⟩ := extIn_arrives ha (init := none) (fun s hs => (by cases hs)) a2 a1 hps
  refine ⟨he, b, l, p, h1, h2, fun part => C75_unsigned_partial acc c.func hc.major hc.id c.tokens hc.good h hc.ok hc.room hc.regular p hp part, ?_⟩
  obtain ⟨w1, w2⟩ := Tlb.reader_contents (b := p.bits) (r := p.refs) hps
  obtain ⟨s', r, _⟩ := readBody_reads hc.ok c.func.headers hc.id (sig := none) (fun s hs => (by cases hs)) _ (chainE x G) w1 (by
    rw [w2, q3]
    rfl)
  exact congrArg Prod.fst r

/-- **C89.** Nothing stands in the way of signing: once the payload is made, the message is made for every address and takes every signature. -/
theorem C89_signable_partial (H : Hasher) (now : Nat) (c : Call) (h : Head) (hc : c.Fine now h) (a : StdAddr) (ha : a.Ok) (e : Nat) (p : Cell)
    (hp : c.payload anyCell now true = .ok (e, p)) : ∃ u, c.message H anyCell now a = .ok u ∧ u.dst = a ∧ u.init = none ∧ u.body.expire = e ∧
      ∀ init (key : List Byte → List Byte) id, (∀ d, (key d).length = 64) → ∃ m, (u.setInit init).sign anyCell key id = .ok m := by
  obtain ⟨he, hp'⟩ := call_payload hc hp
  obtain ⟨f1, f2⟩ := C75_fillable_partial anyCell c.func hc.major hc.id c.tokens hc.good h hc.ok hc.room hc.regular p hp'
  obtain ⟨s, hs⟩ := f2 a ha
  refine ⟨⟨a, ⟨c.func.ver, p, s.reprHash H, e⟩, none⟩, ?_, rfl, rfl, rfl, fun init key id hk => ?_⟩
  · unfold Call.message Call.inputExt
    rw [hp]
    show ((toSign anyCell c.func.ver (some a) p >>= fun s => Except.ok _) >>= _) = _
    rw [hs]
    rfl
  · obtain ⟨k, hkk⟩ := f1 (some (key (extendWithId (s.reprHash H) id))) (fun s hs => by injection hs with hs; subst hs; exact hk _)
    refine ⟨extInMsg a init k, ?_⟩
    show (fillSignature anyCell c.func.ver p (some (key (extendWithId (s.reprHash H) id))) >>= fun c => Except.ok (extInMsg a init c)) = _
    rw [hkk]
    rfl

/-- **C89.** From version 2.3 on what is signed belongs to one network, one address and one call: if the same bytes are checked for two bodies at two addresses, they
are the same up to the signature. Up to a hash collision. -/
theorem C89_bound (H : Hasher) (ver ver' : Ver) (hv : ver.addressSigned = true) (hv' : ver'.addressSigned = true) (id id' : Option Int) (hid : ∀ i, id = some i → IsI32 i)
    (hid' : ∀ i, id' = some i → IsI32 i) (a a' : StdAddr) (ha : a.Ok) (ha' : a'.Ok) (k k' : Cell) (hk : (checkedCell ver a k).WF H) (hk' : (checkedCell ver' a' k').WF H)
    (hf : (checkedCell ver a k).bits.length ≤ 1023 ∧ k.refs.length ≤ 4)
    (h : checkedData H ver id a k = checkedData H ver' id' a' k') :
    Collision H (checkedCell ver a k) (checkedCell ver' a' k') ∨ (id = id' ∧ a = a' ∧ k.bits.drop 513 = k'.bits.drop 513 ∧ k.refs = k'.refs) := by
  unfold checkedData at h
  rw [← extend_eq, ← extend_eq] at h
  have l1 : ((checkedCell ver a k).reprHash H).length = 32 := Cell.info_hash_len H _ hk 3
  have l2 : ((checkedCell ver' a' k').reprHash H).length = 32 := Cell.info_hash_len H _ hk' 3
  have hlen := congrArg List.length h
  have key : id = id' ∧ (checkedCell ver a k).reprHash H = (checkedCell ver' a' k').reprHash H := by
    cases id with
    | none =>
      cases id' with
      | none => exact ⟨rfl, h⟩
      | some i => simp only [extendWithId, i32be, List.length_append, List.length_map, List.length_cons, List.length_nil] at hlen; omega
    | some i =>
      cases id' with
      | none => simp only [extendWithId, i32be, List.length_append, List.length_map, List.length_cons, List.length_nil] at hlen; omega
      | some j =>
        obtain ⟨h1, h2⟩ := List.append_inj (show i32be i ++ _ = i32be j ++ _ from h) rfl
        refine ⟨?_, h2⟩
        have := congrArg bytesToBits h1
        unfold i32be at this
        rw [bytes_of_natBits32 _ (i32ToU32_lt i), bytes_of_natBits32 _ (i32ToU32_lt j)] at this
        have := natBits_inj (i32ToU32_lt i) (i32ToU32_lt j) this
        have hi := hid i rfl
        have hj := hid' j rfl
        unfold i32ToU32 at this
        unfold IsI32 at hi hj
        congr 1
        omega
  rcases C12_repr_hash H _ _ hk hk' key.2 with heq | hcol
  · right
    unfold checkedCell at heq
    rw [if_pos hv, if_pos hv'] at heq
    injection heq with _ hb hr
    have e1 := ((C47_std (ρ := Cell)).2 a ha).2.2
    have e2 := ((C47_std (ρ := Cell)).2 a' ha').2.2
    have henc : (a.enc ++ (k.bits.drop 513, k.refs) : Enc Cell) = a'.enc ++ (k'.bits.drop 513, k'.refs) := by
      refine Prod.ext hb ?_
      rw [Enc.append_snd, Enc.append_snd, e1, e2]
      exact hr
    have hfits : (a.enc ++ (k.bits.drop 513, k.refs) : Enc Cell).Fits := by
      constructor
      · have := hf.1
        unfold checkedCell at this
        rw [if_pos hv] at this
        exact this
      · rw [Enc.append_snd, e1]
        exact hf.2
    have haa : a = a' := same_prefix ((C47_std (ρ := Cell)).1.reads a _ ⟨ha, rfl⟩) ((C47_std (ρ := Cell)).1.reads a' _ ⟨ha', rfl⟩) hfits henc
    subst haa
    have := Enc.cancel henc
    injection this with t1 t2
    exact ⟨key.1, rfl, t1, t2⟩
  · exact Or.inl hcol

/-- **C89.** A body that was made for one address and is sent to another (`with_dst`): the message arrives there, but from version 2.3 on the bytes that are checked there
are not those that were signed. Up to a hash collision. -/
theorem C89_other_dst (H : Hasher) (acc : Cell → Bool) (now : Nat) (c : Call) (h : Head) (hc : c.Fine now h) (hv : c.func.ver.addressSigned = true) (a a' : StdAddr)
    (ha : a.Ok) (ha' : a'.Ok) (hne : a ≠ a') (hca : c.address = some a) (u : Unsigned) (hu : c.input H acc now = .ok u) (key : List Byte → List Byte)
    (hkey : ∀ d, (key d).length = 64) (id : Option Int) (m : Msg MsgInfo (SliceRange × Cell)) (hm : (u.withDst a').sign acc key id = .ok m)
    (hw : ∀ d : StdAddr, d.Ok → (checkedCell c.func.ver d m.body.2).WF H) :
    m.info = .extIn ⟨none, .std a', 0⟩ ∧
    (Collision H (checkedCell c.func.ver a m.body.2) (checkedCell c.func.ver a' m.body.2) ∨ checkedData H c.func.ver id a' m.body.2 ≠ extendWithId u.hash id) := by
  unfold Call.input at hu
  rw [hca] at hu
  unfold UnsignedMsg.sign UnsignedMsg.fill at hm
  obtain ⟨k, hk, hm⟩ := bind_inv hm
  injection hm with hm
  subst hm
  obtain ⟨e1, e2, e3, e4, e5, e6, e7, e8⟩ := signed_body hc ha hu (sig := some (key (extendWithId u.hash id))) (fun s hs => by injection hs with hs; subst hs; exact hkey _) hk
  obtain ⟨g1, g2, g3, g4⟩ := e8 _ rfl
  refine ⟨rfl, ?_⟩
  change ∀ d : StdAddr, d.Ok → (checkedCell c.func.ver d k).WF H at hw
  show Collision H (checkedCell c.func.ver a k) (checkedCell c.func.ver a' k) ∨ checkedData H c.func.ver id a' k ≠ _
  by_cases heq : checkedData H c.func.ver id a' k = extendWithId u.hash id
  · left
    unfold checkedData at heq
    rw [← extend_eq, g4] at heq
    have hh : (checkedCell c.func.ver a k).reprHash H = (checkedCell c.func.ver a' k).reprHash H := by
      cases id with
      | none => exact heq.symm
      | some i => exact (List.append_cancel_left (show i32be i ++ _ = i32be i ++ _ from heq)).symm
    rcases C12_repr_hash H _ _ (hw a ha) (hw a' ha') hh with hcc | hcol
    · exfalso
      unfold checkedCell at hcc
      rw [if_pos hv, if_pos hv] at hcc
      injection hcc with _ hb _
      exact hne (addr_inj ha ha' hb rfl)
    · exact hcol
  · exact Or.inr heq

/-- **C89.** A call by an internal message: if it could be made and stored, whoever loads it finds destination, amount, flag and state init as given, and a body from which the
arguments are read. (Storing can fail by one bit, `C59_internal_refused`.) -/
theorem C89_internal_partial (acc : Cell → Bool) (f : Func) (hv : 1 ≤ f.ver.major) (hid : f.inputId < 2 ^ 32) (tokens : Items) (hg : GoodItems f.ver (tokens.named f.inputs))
    (hr : Regular f.ver (idTuple f.inputId (tokens.named f.inputs))) (dst : IntAddr) (hd : dst.Ok) (value : Nat) (hval : Tlb.tokens.ok value) (bounce : Bool)
    (init : Option StateInit) (hi : PlacedInit acc init) (m : Msg RelaxedMsgInfo (SliceRange × Cell)) (hm : f.internalMessage acc tokens dst value bounce init = .ok m)
    (b : CellB Cell) (hb : m.store acc relaxedKind (partsBody acc acc) .new = (.ok (), b)) :
    ∃ l k, receivedInternal acc b = .ok ⟨.int ⟨⟨true, bounce, false⟩, none, dst, ⟨value, none⟩, 0, 0, 0, 0⟩, init, (fullRange k, k), some l⟩ ∧
      ∀ part, f.decodeInternal part (cellSlice k) = .ok (tokens.named f.inputs) := by
  unfold Func.internalMessage at hm
  obtain ⟨bb, hbb, hm⟩ := bind_inv hm
  obtain ⟨k, hk, hm⟩ := bind_inv hm
  injection hm with hm
  subst hm
  have hwf : bb.WF := by
    have h2 := hbb
    unfold Func.encodeInternal at h2
    split at h2
    · rw [← encode_named f.inputs] at h2
      exact body_wf hv hid hg hr h2
    · cases h2
  have hkc := build_ok hk
  obtain ⟨ka, kx⟩ := build_acc hk
  have hks : k.bits.length ≤ 1023 ∧ k.refs.length ≤ 4 := by rw [hkc]; exact hwf.contents_fits
  have hok : ∀ l, Msg.Ok (B := SliceRange × Cell) acc relaxedKind (partsOk acc acc)
      ⟨.int ⟨⟨true, bounce, false⟩, none, dst, ⟨value, none⟩, 0, 0, 0, 0⟩, init, (fullRange k, k), none⟩ l := fun l =>
    { info := ⟨trivial, trivial, hd, hval, zero_tokens, zero_tokens, (by show 0 < 2 ^ 64; decide), (by show 0 < 2 ^ 32; decide)⟩
      init := fun s h => by
        have := hi s h
        show if l.initToCell then _ else _
        split
        · exact this.2
        · exact this.1
      body := partsOk_full kx ka hks _ }
  obtain ⟨body', s, h1, h2, _⟩ := (C58_messages acc acc).2.2.2.round _ (hok _) b hb
  have h2 : body' = _ := h2
  dsimp only at h2
  rw [partsCell_full kx] at h2
  rw [h2] at h1
  refine ⟨_, k, congrArg Prod.fst h1, fun part => ?_⟩
  have := C75_internal_partial acc f hv hid tokens hg hr bb hbb part
  rw [hkc]
  exact this

/-! ### Examples -/

/-- A call with all headers, of a function of version 2.3. -/
def exCall (ver : Ver) : Call := (((exFunc ver [.pubkey, .time, .expire] none).call exArgs).withTime 1700000000123).withPubkey (List.replicate 32 7)

theorem exCall_fine (ver : Ver) (hm : 1 < ver.major) (now : Nat) : (exCall ver).Fine now exHead where
  major := hm
  id := (by show 0xdeadbeef &&& 0x7fffffff < 2 ^ 32; decide)
  good := exArgs_good ver _ none
  time := rfl
  expire := (by show 1700000060 = 1700000000123 / 1000 + 60; decide)
  pubkey := rfl
  ok := exHead_ok
  room := C75_room (exFunc ver [.pubkey, .time, .expire] none) _ hm (by show [Hdr.pubkey, .time, .expire].Nodup; decide)
  regular := Or.inr (Or.inl rfl)

theorem exAddr_ok (w : Int) (h : IsI8 w) : (exAddr w).Ok := ⟨trivial, h, rfl⟩

-- the payload of this call is made, so by `C89_signable_partial` it can be signed for every address
example : ((exCall ⟨2, 3⟩).payload anyCell 5 true).toOption.map (·.1) = some 1700000060 := by decide +kernel

/-- Made, signed, stored, loaded and decoded. -/
def exTrip (ver : Ver) (id : Option Int) : Except Err (Items × StdAddr × List Byte × List Byte) := do
  let u ← (exCall ver).message toyHasher anyCell 5 (exAddr 0)
  let m ← u.sign anyCell (fun d => d ++ List.replicate (64 - d.length) 9) id
  let b ← match m.store anyCell fullKind (partsBody anyCell anyCell) .new with | (.ok (), b) => .ok b | (.error e, _) => .error e
  let r ← received anyCell b
  let l ← (exCall ver).func.decodeExternal false (cellSlice r.body.2)
  match r.info with
  | .extIn ⟨none, .std a, 0⟩ => .ok (l, a, checkedData toyHasher ver id a r.body.2, packBytes ((r.body.2.bits.drop 1).take 512))
  | _ => .error .invalidData

-- the signature in the body is that of the bytes that are checked, with and without an id of a network
example : ([none, some (-5)] : List (Option Int)).map (fun id => (exTrip ⟨2, 3⟩ id).toOption.map fun r => decide (r.2.1 = exAddr 0 ∧ r.2.2.2.take r.2.2.1.length = r.2.2.1)) =
    [some true, some true] := by decide +kernel

/-- C89: arguments that are not of the types of the parameters make no message, of no kind. -/
theorem C89_refused (H : Hasher) (acc : Cell → Bool) (now : Nat) (c : Call) (ht : (c.tokens.named c.func.inputs).types ≠ c.func.inputs) :
    (∀ a, c.message H acc now a = .error .invalidData) ∧ (∀ a, c.messageUnsigned acc now a = .error .invalidData) ∧
    c.input H acc now = .error .invalidData ∧ ∀ dst value bounce init, c.func.internalMessage acc c.tokens dst value bounce init = .error .invalidData := by
  have hn : ¬ haveTypes c.tokens c.func.inputs = true := fun h => ht (named_types _ _ h)
  have hp : ∀ signed, c.payload acc now signed = .error .invalidData := fun signed => by unfold Call.payload; rw [if_neg hn]
  refine ⟨fun a => ?_, fun a => ?_, ?_, fun dst value bounce init => ?_⟩
  · unfold Call.message Call.inputExt; rw [hp]; rfl
  · unfold Call.messageUnsigned; rw [hp]; rfl
  · unfold Call.input Call.inputExt; rw [hp]; rfl
  · unfold Func.internalMessage Func.encodeInternal; rw [if_neg hn]; rfl

example : (((exCall ⟨2, 3⟩).tokens.named (.cons "y" .bool .nil)).types ≠ .cons "y" .bool .nil) := by decide +kernel

end Abi
end Verif
