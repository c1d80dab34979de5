import Verif.AbiContract
/-!
# Lemmas about message bodies
-/
set_option linter.unusedVariables false
set_option linter.unusedSimpArgs false
namespace Verif
namespace Abi

/-! ### Names -/

mutual
theorem named_type : ∀ (v : Val) (t : Ty), hasType v t = true → (v.named t).type = t
  | .uint .., t, h => by cases t <;> simp_all [hasType, Val.named, Val.type]
  | .int .., t, h => by cases t <;> simp_all [hasType, Val.named, Val.type]
  | .varuint .., t, h => by cases t <;> simp_all [hasType, Val.named, Val.type]
  | .varint .., t, h => by cases t <;> simp_all [hasType, Val.named, Val.type]
  | .bool _, t, h => by cases t <;> simp_all [hasType, Val.named, Val.type]
  | .cell _, t, h => by cases t <;> simp_all [hasType, Val.named, Val.type]
  | .address _, t, h => by cases t <;> simp_all [hasType, Val.named, Val.type]
  | .bytes _, t, h => by cases t <;> simp_all [hasType, Val.named, Val.type]
  | .fixedBytes _, t, h => by cases t <;> simp_all [hasType, Val.named, Val.type]
  | .string _, t, h => by cases t <;> simp_all [hasType, Val.named, Val.type]
  | .token _, t, h => by cases t <;> simp_all [hasType, Val.named, Val.type]
  | .array .., t, h => by cases t <;> simp_all [hasType, Val.named, Val.type]
  | .fixedArray .., t, h => by cases t <;> simp_all [hasType, Val.named, Val.type]
  | .map .., t, h => by cases t <;> simp_all [hasType, Val.named, Val.type]
  | .absent _, t, h => by cases t <;> simp_all [hasType, Val.named, Val.type]
  | .present .., t, h => by cases t <;> simp_all [hasType, Val.named, Val.type]
  | .tuple l, t, h => by
    cases t with
    | tuple ts =>
      simp only [hasType] at h
      simp only [Val.named, Val.type, named_types l ts h]
    | _ => simp [hasType] at h
  | .ref v, t, h => by
    cases t with
    | ref t =>
      simp only [hasType] at h
      simp only [Val.named, Val.type, named_type v t h]
    | _ => simp [hasType] at h
theorem named_types : ∀ (l : Items) (ts : Tys), haveTypes l ts = true → (l.named ts).types = ts
  | .nil, ts, h => by
    cases ts with
    | nil => simp only [Items.named, Items.types]
    | cons => simp [haveTypes] at h
  | .cons n v r, ts, h => by
    cases ts with
    | nil => simp [haveTypes] at h
    | cons n' t ts =>
      simp only [haveTypes, Bool.and_eq_true] at h
      simp only [Items.named, Items.types, named_type v t h.1, named_types r ts h.2]
end

mutual
theorem named_exact : ∀ (v : Val) (t : Ty), (v.named t).exact = v.exact
  | .uint .., t => by cases t <;> simp only [Val.named]
  | .int .., t => by cases t <;> simp only [Val.named]
  | .varuint .., t => by cases t <;> simp only [Val.named]
  | .varint .., t => by cases t <;> simp only [Val.named]
  | .bool _, t => by cases t <;> simp only [Val.named]
  | .cell _, t => by cases t <;> simp only [Val.named]
  | .address _, t => by cases t <;> simp only [Val.named]
  | .bytes _, t => by cases t <;> simp only [Val.named]
  | .fixedBytes _, t => by cases t <;> simp only [Val.named]
  | .string _, t => by cases t <;> simp only [Val.named]
  | .token _, t => by cases t <;> simp only [Val.named]
  | .array .., t => by cases t <;> simp only [Val.named]
  | .fixedArray .., t => by cases t <;> simp only [Val.named]
  | .map .., t => by cases t <;> simp only [Val.named]
  | .absent _, t => by cases t <;> simp only [Val.named]
  | .present .., t => by cases t <;> simp only [Val.named]
  | .tuple l, t => by
    cases t with
    | tuple ts => simp only [Val.named, Val.exact, named_exacts l ts]
    | _ => simp only [Val.named]
  | .ref v, t => by cases t <;> simp only [Val.named, Val.exact]
theorem named_exacts : ∀ (l : Items) (ts : Tys), (l.named ts).exact = l.exact
  | .nil, ts => by simp only [Items.named]
  | .cons n v r, ts => by
    cases ts with
    | nil => simp only [Items.named]
    | cons n' t ts => simp only [Items.named, Items.exact, named_exact v t, named_exacts r ts]
end

mutual
theorem named_max : ∀ (v : Val) (t : Ty), (v.named t).maxSize = v.maxSize
  | .uint .., t => by cases t <;> simp only [Val.named]
  | .int .., t => by cases t <;> simp only [Val.named]
  | .varuint .., t => by cases t <;> simp only [Val.named]
  | .varint .., t => by cases t <;> simp only [Val.named]
  | .bool _, t => by cases t <;> simp only [Val.named]
  | .cell _, t => by cases t <;> simp only [Val.named]
  | .address _, t => by cases t <;> simp only [Val.named]
  | .bytes _, t => by cases t <;> simp only [Val.named]
  | .fixedBytes _, t => by cases t <;> simp only [Val.named]
  | .string _, t => by cases t <;> simp only [Val.named]
  | .token _, t => by cases t <;> simp only [Val.named]
  | .array .., t => by cases t <;> simp only [Val.named]
  | .fixedArray .., t => by cases t <;> simp only [Val.named]
  | .map .., t => by cases t <;> simp only [Val.named]
  | .absent _, t => by cases t <;> simp only [Val.named]
  | .present .., t => by cases t <;> simp only [Val.named]
  | .tuple l, t => by
    cases t with
    | tuple ts => simp only [Val.named, Val.maxSize, named_maxs l ts]
    | _ => simp only [Val.named]
  | .ref v, t => by cases t <;> simp only [Val.named, Val.maxSize]
theorem named_maxs : ∀ (l : Items) (ts : Tys), (l.named ts).maxSize = l.maxSize
  | .nil, ts => by simp only [Items.named]
  | .cons n v r, ts => by
    cases ts with
    | nil => simp only [Items.named]
    | cons n' t ts => simp only [Items.named, Items.maxSize, named_max v t, named_maxs r ts]
end

theorem named_size (ver : Ver) (v : Val) (t : Ty) : (v.named t).size ver = v.size ver := by
  unfold Val.size
  rw [named_exact, named_max]

mutual
/-- Names are not written. -/
theorem named_write (acc : Cell → Bool) (ver : Ver) : ∀ (v : Val) (t : Ty), write acc ver (v.named t) = write acc ver v
  | .uint .., t => by cases t <;> simp only [Val.named]
  | .int .., t => by cases t <;> simp only [Val.named]
  | .varuint .., t => by cases t <;> simp only [Val.named]
  | .varint .., t => by cases t <;> simp only [Val.named]
  | .bool _, t => by cases t <;> simp only [Val.named]
  | .cell _, t => by cases t <;> simp only [Val.named]
  | .address _, t => by cases t <;> simp only [Val.named]
  | .bytes _, t => by cases t <;> simp only [Val.named]
  | .fixedBytes _, t => by cases t <;> simp only [Val.named]
  | .string _, t => by cases t <;> simp only [Val.named]
  | .token _, t => by cases t <;> simp only [Val.named]
  | .array .., t => by cases t <;> simp only [Val.named]
  | .fixedArray .., t => by cases t <;> simp only [Val.named]
  | .map .., t => by cases t <;> simp only [Val.named]
  | .absent _, t => by cases t <;> simp only [Val.named]
  | .present .., t => by cases t <;> simp only [Val.named]
  | .tuple l, t => by
    cases t with
    | tuple ts =>
      funext s
      simp only [Val.named, write, named_writes acc ver l ts]
    | _ => simp only [Val.named]
  | .ref v, t => by
    cases t with
    | ref t =>
      funext s
      simp only [Val.named, write, named_write acc ver v t, named_size]
    | _ => simp only [Val.named]
theorem named_writes (acc : Cell → Bool) (ver : Ver) : ∀ (l : Items) (ts : Tys), writeItems acc ver (l.named ts) = writeItems acc ver l
  | .nil, ts => by simp only [Items.named]
  | .cons n v r, ts => by
    cases ts with
    | nil => simp only [Items.named]
    | cons n' t ts =>
      funext s
      simp only [Items.named, writeItems, named_write acc ver v t, named_writes acc ver r ts]
end

theorem named_tuple (ver : Ver) (l : Items) (ts : Tys) : (Val.tuple (l.named ts)).size ver = (Val.tuple l).size ver := by
  have := named_size ver (.tuple l) (.tuple ts)
  simpa only [Val.named] using this

/-! ### Bodies -/

/-- The leaf of an unsigned number. -/
theorem uint_item {acc : Cell → Bool} {ver : Ver} {n v : Nat} (h1 : 1 ≤ n) (h2 : n ≤ 1023) (h3 : v < 2 ^ n) {s s' : Ser} (hr : Ready s)
    (h : write acc ver (.uint n v) s = .ok s') :
    Flat ver (.uint n v) [⟨⟨n, 0⟩, Enc.bits (natBits n v)⟩] ∧ PutAll ver [⟨⟨n, 0⟩, Enc.bits (natBits n v)⟩] s s' := by
  simp only [write] at h
  rw [Big.storeU_ok h2 h3] at h
  refine ⟨?_, PutAll.one (Big.truncU _ h2).writes h⟩
  have hl : (natBits n v).length = n := natBits_length _ _
  refine flat_bits rfl (ne_of_len hl h1) rfl h2 rfl rfl (Nat.le_of_eq hl.symm) (Nat.le_of_eq hl) ?_ fun part => ?_
  · show n = if ver.useMax = true then n else (natBits n v).length
    rw [hl]; exact ite_u ver n
  · refine (Dec.leaf ((Big.loadU_takes h2 (Nat.le_refl _)).reads_nat h3) h1 (Nat.le_of_eq hl.symm) (fun v => Val.uint n v)).congr fun last => ?_
    simp only [Val.type, load]

theorem flat_tuple {ver : Ver} {l : Items} {T : List Item} (hl : l ≠ .nil) (h1 : FlatItems ver l T) : Flat ver (.tuple l) T := by
  refine ⟨fun e => hl (h1.nil.mpr e), h1.sizes, fun part => ?_⟩
  refine ((h1.dec part).map (fun l => Val.tuple l)).congr fun last => ?_
  simp only [Val.type, load]

/-- An id followed by arguments, as one tuple. -/
def idTuple (id : Nat) (tokens : Items) : Val := .tuple (.cons "" (.uint 32 id) tokens)

/-- The arguments, read after the prefix. -/
theorem read_args {ver : Ver} {part : Bool} {id : Nat} {tokens : Items} {T : List Item} (hf : FlatItems ver tokens T) {head : Rd Cell Nat} {e : Enc Cell}
    (hh : Reads head e id) {s : CSlice Cell} (hs : s.WF) {x : List Leaf} {G : List (List Leaf)} (hc : s.contents = e ++ chainE x G)
    (hx : x ++ G.flatten = T.map (·.e)) (hl : Link ver s.refs.length G) :
    whole part (head >>= fun y => checkId y id >>= fun _ => loadItems ver part tokens.types true) s = .ok tokens := by
  obtain ⟨s1, e1, w1, c1, d1, r1⟩ := hh s _ hs hc
  have ha : At ver s1 x G := ⟨w1, c1, fun e he => by
    rw [hx] at he
    obtain ⟨i, hi, rfl⟩ := List.mem_map.mp he
    exact (hf.sizes.ok i hi).solid, by rw [r1]; exact hl⟩
  have := (hf.dec part).whole ha hx part
  unfold whole at this ⊢
  rw [Prog.bind_ok e1]
  have hck : (checkId id id >>= fun _ => loadItems ver part tokens.types true) = loadItems ver part tokens.types true := by
    unfold checkId
    rw [beq_self_eq_true]
    rfl
  rw [hck]
  exact this

theorem reads_id {id : Nat} (h : id < 2 ^ 32) : Reads (Rd.u32 : Rd Cell Nat) (Enc.bits (natBits 32 id)) id := (Rd.takes_u32 (ρ := Cell)).reads_nat h

/-- **Bodies of internal messages.** -/
theorem body_round {acc : Cell → Bool} {ver : Ver} (hv : 1 ≤ ver.major) {id : Nat} (hid : id < 2 ^ 32) {tokens : Items} (hg : GoodItems ver tokens)
    (hr : Regular ver (idTuple id tokens)) {b : CellB Cell} (h : encodeBody acc ver id tokens = .ok b) (part : Bool) :
    decodeBody ver part id tokens.types (Sl.reader ⟨b.inner.bits, b.refs⟩) = .ok tokens := by
  unfold encodeBody at h
  cases h1 : write acc ver (.uint 32 id) (Ser.start ((Val.uint 32 id).size ver + (Val.tuple tokens).size ver)) with
  | error x => rw [h1] at h; cases h
  | ok s1 =>
    rw [h1] at h
    change writeItems acc ver tokens s1 >>= finalize acc = .ok b at h
    cases h2 : writeItems acc ver tokens s1 with
    | error x => rw [h2] at h; cases h
    | ok s2 =>
      rw [h2] at h
      change finalize acc s2 = .ok b at h
      obtain ⟨f1, p1⟩ := uint_item (by decide) (by decide) hid (ready_start _) h1
      obtain ⟨T, f2, p2⟩ := writtenItems hv tokens hg s1 s2 (p1.ready (ready_start _)) h2
      have f3 : FlatItems ver (.cons "" (.uint 32 id) tokens) _ := flat_cons f1 f2
      have f4 : Flat ver (idTuple id tokens) _ := flat_tuple (by simp) f3
      have hac : Acct ver 0 _ ((idTuple id tokens).size ver) := acct_of hv f4 hr
      unfold idTuple at hac
      rw [tuple_size] at hac
      obtain ⟨x, G, k1, k2, _⟩ := packedAt (o := 0) hv f4.sizes.ok (by simp) (fun i T' hi => by
        injection hi with hi _
        subst hi
        show 0 + 32 ≤ 1023
        omega) (fun _ => by simp [sumBits, sumRefs]) hac (p1.append p2) h
      obtain ⟨w1, w2⟩ := Tlb.reader_contents (b := b.inner.bits) (r := b.refs) k1.wf.contents_fits
      refine read_args f2 (reads_id hid) w1 ?_ k2 k1.link
      refine w2.trans (k1.contents.trans ?_)
      show chainE (Enc.bits (natBits 32 id) :: x) G = _
      rw [chainE_cons]

/-! ### Headers -/

/-- The leaf of a header. -/
def Hdr.enc (h : Head) : Hdr → Leaf
  | .time => Enc.bits (natBits 64 h.time)
  | .expire => Enc.bits (natBits 32 h.expire)
  | .pubkey => match h.pubkey with
    | none => Enc.bits [false]
    | some k => Enc.bits [true] ++ Enc.bits (rawBits k 256)

theorem Hdr.writes {h : Head} (hk : h.Ok) (x : Hdr) : Writes (x.store h) (x.enc h) := by
  cases x with
  | time => exact (Wr.writes_u64 hk.time).writes
  | expire => exact (Wr.writes_u32 hk.expire).writes
  | pubkey =>
    unfold Hdr.store Hdr.enc
    dsimp only
    cases hp : h.pubkey with
    | none => exact (Wr.writes_bit false).writes
    | some k =>
      have := hk.pubkey k hp
      exact (Wr.writes_bit true).writes.bind (w2 := Wr.raw k 256) (Wr.writes_raw (by decide) (by omega)).writes

/-- The item of a header. -/
def Hdr.item (ver : Ver) (h : Head) (x : Hdr) : Item := ⟨⟨x.size ver h.pubkey.isSome, 0⟩, x.enc h⟩

theorem Hdr.enc_bits (h : Head) (x : Hdr) : (x.enc h).1 ≠ [] ∧ (x.enc h).2 = [] := by
  cases x with
  | time => exact ⟨ne_of_len (natBits_length 64 h.time) (by decide), rfl⟩
  | expire => exact ⟨ne_of_len (natBits_length 32 h.expire) (by decide), rfl⟩
  | pubkey =>
    unfold Hdr.enc
    dsimp only
    cases h.pubkey with
    | none => exact ⟨by simp [Enc.bits], rfl⟩
    | some k => exact ⟨by simp [Enc.bits], rfl⟩

theorem Hdr.size_le (ver : Ver) (k : Bool) (x : Hdr) : x.size ver k ≤ 257 := by
  cases x with
  | time => show 64 ≤ 257; decide
  | expire => show 32 ≤ 257; decide
  | pubkey => unfold Hdr.size; dsimp only; split <;> omega

theorem Hdr.enc_len (ver : Ver) (h : Head) (x : Hdr) : (x.enc h).1.length ≤ x.size ver h.pubkey.isSome := by
  cases x with
  | time => exact Nat.le_of_eq (natBits_length 64 h.time)
  | expire => exact Nat.le_of_eq (natBits_length 32 h.expire)
  | pubkey =>
    unfold Hdr.enc Hdr.size
    dsimp only
    cases h.pubkey with
    | none => exact Nat.le_add_right 1 _
    | some k =>
      rw [if_pos (by simp)]
      show ([true] ++ rawBits k 256).length ≤ 257
      rw [List.length_append, rawBits_length]
      exact Nat.le_refl _

theorem Hdr.item_ok (ver : Ver) (h : Head) (x : Hdr) : (x.item ver h).Ok :=
  ⟨Or.inl (x.enc_bits h).1, fun e => absurd e (x.enc_bits h).1, Nat.le_trans (x.size_le ver _) (by decide), by show 0 ≤ 3; omega, x.enc_len ver h⟩

theorem headers_put {ver : Ver} {h : Head} (hk : h.Ok) : ∀ (l : List Hdr) (s s' : Ser), writeHeaders ver h l s = .ok s' →
    PutAll ver (l.map (Hdr.item ver h)) s s'
  | [], s, s', e => by
    injection e with e
    subst e
    exact .nil _
  | x :: r, s, s', e => by
    unfold writeHeaders at e
    cases hp : put ver ⟨x.size ver h.pubkey.isSome, 0⟩ (x.store h) s with
    | error y => rw [hp] at e; cases e
    | ok s1 =>
      rw [hp] at e
      exact .cons (i := x.item ver h) (x.writes hk) hp (headers_put hk r s1 s' e)

/-- `skip_first` of bits. -/
theorem takes_skip {n : Nat} (hn : n ≤ 1023) : Rd.Takes (Rd.skip n 0 : Rd Cell Unit) n (fun _ => ()) := by
  intro s hs
  have c := C03_read hs (.skipFirst n 0) ⟨by omega, by omega⟩
  simp only [LoadOp.run, LoadOp.spec, LoadOp.specBoth, LoadOp.view] at c
  obtain ⟨h1, h2, h3, h4, h5, h6⟩ := c
  unfold Rd.skip
  dsimp only at h1 h2 h3 h4 h5 h6
  rcases hr : s.skipFirst n 0 with ⟨r, s1⟩
  rw [hr] at h1 h2 h3 h4 h5 h6
  constructor
  · intro hle
    rw [if_pos ⟨hle, Nat.zero_le _⟩] at h1 h2
    cases r with
    | error e => cases h1
    | ok u => exact ⟨s1, rfl, h3, h2, h5, h6⟩
  · intro hle
    rw [if_neg (fun h => hle h.1)] at h1 h2
    cases r with
    | ok u => cases h1
    | error e =>
      have h4' : s1 = s := h4 e rfl
      simp only [Except.map, Except.error.injEq] at h1
      rw [h1, h4']

/-- A read of data that is there needs no jump. -/
theorem reads_preload {α : Type} {n : Nat} {p : Rd Cell α} {e : Enc Cell} {v : α} (hn : n ≤ e.1.length) (h : Reads p e v) : Reads (preload n >>= fun _ => p) e v := by
  intro s rest hs hc
  have hp : preload n s = (.ok (), s) := by
    unfold preload
    by_cases h0 : n = 0
    · rw [if_pos h0]
    · have hsz : n ≤ s.range.sizeBits := by
        rw [sizeBits_eq, hc, Enc.append_fst, List.length_append]
        omega
      rw [if_neg h0, if_neg (by omega), if_neg (by omega)]
  obtain ⟨s', h1, h2⟩ := h s rest hs hc
  exact ⟨s', by rw [Prog.bind_ok hp]; exact h1, h2⟩

theorem reads_skip {l : Bits} {n : Nat} (hl : l.length = n) (hn : n ≤ 1023) : Reads (Rd.skip n 0 : Rd Cell Unit) (Enc.bits l) () := (takes_skip hn).reads hl

theorem Hdr.reads (h : Head) (x : Hdr) : Reads x.skip (x.enc h) () := by
  cases x with
  | time => exact reads_preload (Nat.le_of_eq (natBits_length 64 h.time).symm) (reads_skip (natBits_length 64 h.time) (by decide))
  | expire => exact reads_preload (Nat.le_of_eq (natBits_length 32 h.expire).symm) (reads_skip (natBits_length 32 h.expire) (by decide))
  | pubkey =>
    unfold Hdr.skip Hdr.enc
    dsimp only
    cases h.pubkey with
    | none => exact reads_preload (Nat.le_refl 1) (((Rd.reads_bit false).bind (e2 := Enc.nil) (Reads.pure ())).cast (Enc.append_nil _))
    | some k =>
      refine reads_preload (by simp [Enc.bits]) ((Rd.reads_bit true).bind ?_)
      exact reads_preload (Nat.le_of_eq (rawBits_length k 256).symm) (reads_skip (rawBits_length k 256) (by decide))

theorem skipAll_reads (h : Head) : ∀ l : List Hdr, Reads (skipAll l) (flatE (l.map (Hdr.enc h))) ()
  | [] => Reads.pure ()
  | x :: r => (x.reads h).bind (skipAll_reads h r)

/-- The signature as it stands in front of a body. -/
def sigEnc : Option (List Byte) → Enc Cell
  | some s => Enc.bits [true] ++ Enc.bits (rawBits s 512)
  | none => Enc.bits [false]

theorem sig_reads (o : Option (List Byte)) : Reads skipSignature (sigEnc o) () := by
  cases o with
  | none => exact ((Rd.reads_bit false).bind (e2 := Enc.nil) (Reads.pure ())).cast (Enc.append_nil _)
  | some s => exact (Rd.reads_bit true).bind (reads_skip (rawBits_length s 512) (by decide))

/-- The prefix of the body of an external message. -/
theorem head_reads {f : Func} (hm : 1 < f.ver.major) (h : Head) (o : Option (List Byte)) (hid : f.inputId < 2 ^ 32) :
    Reads (externalHead f) (sigEnc o ++ (flatE (f.headers.map (Hdr.enc h)) ++ Enc.bits (natBits 32 f.inputId))) f.inputId := by
  unfold externalHead
  rw [if_neg (by omega)]
  exact (sig_reads o).bind ((skipAll_reads h f.headers).bind (reads_id hid))

theorem stored_inv {acc : Cell → Bool} {w : Wr Cell Unit} {e : Enc Cell} (hw : Writes w e) {c : Cell} (h : w.toSl >>= buildSl acc = .ok c) :
    e.Fits ∧ c = Tlb.cellOf e := by
  by_cases hf : e.Fits
  · rw [Wr.toSl_ok hw hf] at h
    refine ⟨hf, ?_⟩
    change buildSl acc ⟨e.1, e.2⟩ = .ok c at h
    unfold buildSl at h
    dsimp only at h
    by_cases ha : acc (.mk false e.1 e.2) = true
    · rw [if_pos ha] at h
      injection h with h
      exact h.symm
    · rw [if_neg ha] at h
      cases h
  · obtain ⟨b, r, _⟩ := (hw CellB.new CellB.wf_new).2 (by
      show ¬ ((CellB.new : CellB Cell).contents ++ e : Enc Cell).Fits
      exact hf)
    unfold Wr.toSl at h
    rw [r] at h
    cases h

theorem offset_two {ver : Ver} (hm : 1 < ver.major) : ∃ o, payloadOffset ver = ⟨o, 0⟩ ∧ o ≤ 591 := by
  unfold payloadOffset
  rw [if_neg (by omega)]
  split
  · exact ⟨591, rfl, by omega⟩
  · exact ⟨513, rfl, by omega⟩

theorem headers_sum (ver : Ver) (h : Head) (l : List Hdr) : sumBits (l.map (Hdr.item ver h)) = (headersSize ver h l).bits ∧ sumRefs (l.map (Hdr.item ver h)) = 0 := by
  induction l with
  | nil => exact ⟨rfl, rfl⟩
  | cons x r ih =>
    obtain ⟨h1, h2⟩ := ih
    rw [List.map_cons, sumBits_cons, sumRefs_cons, h1, h2]
    refine ⟨?_, rfl⟩
    show x.size ver h.pubkey.isSome + _ = ((x :: r).map _).sum
    rw [List.map_cons, List.sum_cons]
    rfl

/-- The first cell leaves room for the offset. -/
def Bottom (o : Nat) (s : Ser) : Prop :=
  match s.stack with
  | [] => o ≤ s.current.bits
  | [b] => o + b.inner.bits.length ≤ s.current.bits
  | _ :: bs => ∃ b, bs.getLast? = some b ∧ o + b.inner.bits.length ≤ 1023

theorem bottom_put {ver : Ver} {o : Nat} {z : Size} {e : Leaf} {w : Wr Cell Unit} {s s1 : Ser} (hw : Writes w e) (hz : e.1.length ≤ z.bits)
    (h : put ver z w s = .ok s1) (hb : Bottom o s) (hr : Ready s) : Bottom o s1 := by
  have step : ∀ (b b' : CellB Cell), b.WF → w b = (.ok (), b') → b'.inner.bits.length = b.inner.bits.length + e.1.length := by
    intro b b' wf hb
    by_cases hf : (b.contents ++ e : Enc Cell).Fits
    · obtain ⟨b2, r, wf2, c2, _⟩ := (hw b wf).1 hf
      rw [r] at hb
      injection hb with _ hb
      subst hb
      have : b2.inner.bits = (b.contents ++ e : Enc Cell).1 := by rw [← c2]; rfl
      rw [this, Enc.append_fst, List.length_append]
      rfl
    · obtain ⟨b2, r, _⟩ := (hw b wf).2 hf
      rw [r] at hb
      cases hb
  have new0 : (CellB.new : CellB Cell).inner.bits.length = 0 := rfl
  obtain ⟨gs, hh⟩ := hr
  unfold put at h
  cases hr : s.require ver z with
  | error x => rw [hr] at h; cases h
  | ok s0 =>
    rw [hr] at h
    change (match s0.stack with
      | [] => Except.error Err.panic
      | b :: bs => match w b with
        | (.error e, _) => .error e
        | (.ok _, b') => .ok { s0 with stack := b' :: bs }) = _ at h
    unfold Ser.require at hr
    dsimp only at hr
    by_cases hc : (decide (s.current.bits > 1023) || decide (s.current.refs > 4)) = true
    · rw [if_pos hc] at hr; cases hr
    rw [if_neg hc] at hr
    simp only [Bool.or_eq_true, decide_eq_true_eq, not_or, Nat.not_lt] at hc
    unfold Bottom at hb
    by_cases hp : inPlace ver ⟨1023 - s.current.bits, 4 - s.current.refs⟩ ⟨s.remaining.bits - z.bits, s.remaining.refs - z.refs⟩ z = true
    · rw [if_pos hp] at hr
      injection hr with hr
      subst hr
      dsimp only at h
      generalize s.stack = st at hh h hb
      cases hh with
      | nil =>
        dsimp only at h hb
        rcases hwb : w CellB.new with ⟨r, b'⟩
        rw [hwb] at h
        cases r with
        | error x => cases h
        | ok _ =>
          injection h with h
          subst h
          have := step _ _ CellB.wf_new hwb
          show o + b'.inner.bits.length ≤ s.current.bits + z.bits
          omega
      | @cons b g bs gs wf c rr =>
        dsimp only at h
        rcases hwb : w b with ⟨r, b'⟩
        rw [hwb] at h
        cases r with
        | error x => cases h
        | ok _ =>
          injection h with h
          subst h
          have := step _ _ wf hwb
          cases bs with
          | nil =>
            dsimp only at hb
            show o + b'.inner.bits.length ≤ s.current.bits + z.bits
            omega
          | cons b2 bs => exact hb
    · rw [if_neg hp] at hr
      injection hr with hr
      subst hr
      dsimp only at h
      rcases hwb : w CellB.new with ⟨r, b'⟩
      rw [hwb] at h
      cases r with
      | error x => cases h
      | ok _ =>
        injection h with h
        subst h
        generalize s.stack = st at hh hb
        unfold Bottom
        cases hh with
        | nil =>
          dsimp only at hb ⊢
          exact ⟨CellB.new, rfl, by rw [new0]; omega⟩
        | @cons b g bs gs wf c rr =>
          cases bs with
          | nil =>
            dsimp only at hb ⊢
            exact ⟨b, rfl, by omega⟩
          | cons b2 bs =>
            obtain ⟨b3, l1, l2⟩ := hb
            exact ⟨b3, by simpa using l1, l2⟩

theorem current_put {ver : Ver} {z : Size} {e : Leaf} {w : Wr Cell Unit} {s s1 : Ser} (hw : Writes w e) (hz : z.bits ≤ 1023) (h : put ver z w s = .ok s1) (hr : Ready s) :
    s1.current.bits ≤ 1023 := by
  obtain ⟨gs, hh⟩ := hr
  obtain ⟨h1, _, _, hc⟩ := put_inv hw h hh
  rcases hc with ⟨hp, hc, _⟩ | ⟨_, hc, _⟩
  · have := (inPlace_true hp).1
    dsimp only at this
    rw [hc, Size.add_bits]
    omega
  · rw [hc]; exact hz

theorem current_all {ver : Ver} {T : List Item} {s s1 : Ser} (h : PutAll ver T s s1) (hT : ∀ i ∈ T, i.z.bits ≤ 1023) (hc : s.current.bits ≤ 1023) (hr : Ready s) :
    s1.current.bits ≤ 1023 := by
  induction h with
  | nil => exact hc
  | cons hw h r ih =>
    exact ih (fun i hi => hT i (List.mem_cons_of_mem _ hi)) (current_put hw (hT _ List.mem_cons_self) h hr) (put_ready hw h hr).1

theorem bottom_all {ver : Ver} {o : Nat} {T : List Item} {s s1 : Ser} (h : PutAll ver T s s1) (hT : ∀ i ∈ T, i.e.1.length ≤ i.z.bits) (hb : Bottom o s) (hr : Ready s) :
    Bottom o s1 := by
  induction h with
  | nil => exact hb
  | cons hw h r ih =>
    exact ih (fun i hi => hT i (List.mem_cons_of_mem _ hi)) (bottom_put hw (hT _ List.mem_cons_self) h hb hr) (put_ready hw h hr).1

theorem bottom_nest {acc : Cell → Bool} : ∀ (bs : List (CellB Cell)) (r b : CellB Cell), (∀ x ∈ bs, x.WF) → nest acc r bs = .ok b →
    b.inner.bits.length = ((r :: bs).getLast (by simp)).inner.bits.length
  | [], r, b, _, h => by
    injection h with h
    subst h
    rfl
  | x :: bs, r, b, hw, h => by
    unfold nest at h
    cases hc : build acc r with
    | error e => rw [hc] at h; cases h
    | ok c =>
      rw [hc] at h
      change (match (Wr.ref c : Wr Cell Unit) x with
        | (.error e, _) => Except.error e
        | (.ok _, b') => nest acc b' bs) = .ok b at h
      rcases hx : (Wr.ref c : Wr Cell Unit) x with ⟨y, x'⟩
      rw [hx] at h
      cases y with
      | error e => cases h
      | ok u =>
        have ih := bottom_nest bs x' b (fun z hz => hw z (List.mem_cons_of_mem _ hz)) h
        rw [ih]
        have hwf := hw x List.mem_cons_self
        have hxx : x'.inner.bits.length = x.inner.bits.length := by
          by_cases hf : (x.contents ++ Enc.ref c : Enc Cell).Fits
          · obtain ⟨b2, r2, wf2, c2, _⟩ := ((Wr.writes_ref c).writes x hwf).1 hf
            rw [r2] at hx
            injection hx with _ hx
            subst hx
            have : b2.inner.bits = (x.contents ++ Enc.ref c : Enc Cell).1 := by rw [← c2]; rfl
            rw [this, Enc.append_fst, List.length_append]
            rfl
          · obtain ⟨b2, r2, _⟩ := ((Wr.writes_ref c).writes x hwf).2 hf
            rw [r2] at hx
            cases hx
        cases bs with
        | nil => simpa using hxx
        | cons z bs => simp [List.getLast_cons]

theorem Hold.wf {bs : List (CellB Cell)} {gs : List (List Leaf)} (h : Hold bs gs) : ∀ x ∈ bs, x.WF := by
  induction h with
  | nil => intro x hx; cases hx
  | cons wf c r ih =>
    intro x hx
    rcases List.mem_cons.mp hx with rfl | hx
    · exact wf
    · exact ih x hx

theorem bottom_done {acc : Cell → Bool} {o : Nat} {s : Ser} {b : CellB Cell} (hb : Bottom o s) (hc : s.current.bits ≤ 1023) (hr : Ready s)
    (h : finalize acc s = .ok b) : o + b.inner.bits.length ≤ 1023 := by
  obtain ⟨gs, hh⟩ := hr
  unfold finalize at h
  unfold Bottom at hb
  generalize s.stack = st at hh h hb
  cases hh with
  | nil =>
    injection h with h
    subst h
    dsimp only at hb
    show o + 0 ≤ 1023
    omega
  | @cons b0 g bs gs wf c rr =>
    have := bottom_nest bs b0 b rr.wf h
    rw [this]
    cases bs with
    | nil =>
      dsimp only at hb
      show o + b0.inner.bits.length ≤ 1023
      omega
    | cons b2 bs =>
      obtain ⟨b3, l1, l2⟩ := hb
      have : (b0 :: b2 :: bs).getLast (by simp) = b3 := by
        rw [List.getLast_cons (by simp)]
        rw [List.getLast?_eq_some_getLast (by simp)] at l1
        injection l1
      rw [this]
      exact l2

/-- What the serializer makes of a payload. -/
theorem payload_pack {acc : Cell → Bool} {f : Func} (hm : 1 < f.ver.major) (hid : f.inputId < 2 ^ 32) {tokens : Items}
    (hg : GoodItems f.ver (tokens.named f.inputs)) {h : Head} (hk : h.Ok) (hroom : f.Room h) (hreg : f.Regular h (tokens.named f.inputs)) {signed : Bool} {c : Cell}
    (hp : f.payload acc tokens h signed = .ok c) : ∃ T x G, (tokens.named f.inputs).types = f.inputs ∧ FlatItems f.ver (tokens.named f.inputs) T ∧ x ++ G.flatten = T.map (·.e) ∧
      c = Tlb.cellOf ((if signed then Enc.nil else sigEnc none) ++ (flatE (f.headers.map (Hdr.enc h)) ++ Enc.bits (natBits 32 f.inputId)) ++ chainE x G) ∧
      (∀ n, Link f.ver n G) ∧ (payloadOffset f.ver).bits + c.bits.length ≤ 1023 ∧ c.refs.length ≤ 4 := by
  have hv : 1 ≤ f.ver.major := by omega
  obtain ⟨o, ho, ho2⟩ := offset_two hm
  unfold Func.payload at hp
  by_cases ht : haveTypes tokens f.inputs = true
  case neg => rw [if_neg ht] at hp; cases hp
  rw [if_pos ht] at hp
  dsimp only at hp
  rw [← named_writes acc f.ver tokens f.inputs, ← named_tuple f.ver tokens f.inputs] at hp
  have hty := named_types tokens f.inputs ht
  clear ht
  generalize tokens.named f.inputs = tokens at *
  -- the items in front
  have start : ∀ s0 s1 : Ser, Ready s0 → (if signed then (Except.ok s0 : Except Err Ser) else write acc f.ver (noSignature f.ver) s0) = .ok s1 →
      PutAll f.ver (if signed then [] else [⟨⟨1, 0⟩, sigEnc none⟩]) s0 s1 := by
    intro s0 s1 hr hs
    cases signed with
    | true =>
      injection hs with hs
      subst hs
      exact .nil _
    | false =>
      rw [if_neg (by decide)] at hs ⊢
      unfold noSignature at hs
      rw [if_neg (by omega)] at hs
      simp only [write] at hs
      exact PutAll.one (Wr.writes_bit false).writes hs
  generalize hres : (if signed = true then headersSize f.ver h f.headers + ((Val.uint 32 f.inputId).size f.ver + (Val.tuple tokens).size f.ver)
    else (noSignature f.ver).size f.ver + (headersSize f.ver h f.headers + ((Val.uint 32 f.inputId).size f.ver + (Val.tuple tokens).size f.ver))) = res at hp
  rw [ho] at hp
  have hr0 : Ready ⟨⟨o, 0⟩, res, []⟩ := ⟨[], .nil⟩
  cases h0 : (if signed = true then (Except.ok (⟨⟨o, 0⟩, res, []⟩ : Ser) : Except Err Ser) else write acc f.ver (noSignature f.ver) ⟨⟨o, 0⟩, res, []⟩) with
  | error e => rw [h0] at hp; cases hp
  | ok s0 =>
  rw [h0] at hp
  have p0 := start _ _ hr0 h0
  change (writeHeaders f.ver h f.headers s0 >>= fun s => write acc f.ver (.uint 32 f.inputId) s >>= fun s => writeItems acc f.ver tokens s >>= finalize acc >>= build acc) = .ok c at hp
  cases h1 : writeHeaders f.ver h f.headers s0 with
  | error e => rw [h1] at hp; cases hp
  | ok s1 =>
  rw [h1] at hp
  have p1 := headers_put hk _ _ _ h1
  change (write acc f.ver (.uint 32 f.inputId) s1 >>= fun s => writeItems acc f.ver tokens s >>= finalize acc >>= build acc) = .ok c at hp
  cases h2 : write acc f.ver (.uint 32 f.inputId) s1 with
  | error e => rw [h2] at hp; cases hp
  | ok s2 =>
  rw [h2] at hp
  have r1 := p1.ready (p0.ready hr0)
  obtain ⟨f1, p2⟩ := uint_item (by decide) (by decide) hid r1 h2
  change (writeItems acc f.ver tokens s2 >>= finalize acc >>= build acc) = .ok c at hp
  cases h3 : writeItems acc f.ver tokens s2 with
  | error e => rw [h3] at hp; cases hp
  | ok s3 =>
  rw [h3] at hp
  obtain ⟨T, f2, p3⟩ := writtenItems hv tokens hg s2 s3 (p2.ready r1) h3
  change (finalize acc s3 >>= build acc) = .ok c at hp
  cases h4 : finalize acc s3 with
  | error e => rw [h4] at hp; cases hp
  | ok b =>
  rw [h4] at hp
  change build acc b = .ok c at hp
  have hc := build_ok hp
  have f3 : FlatItems f.ver (.cons "" (.uint 32 f.inputId) tokens) _ := flat_cons f1 f2
  generalize hpre : (if signed then ([] : List Item) else [⟨⟨1, 0⟩, sigEnc none⟩]) = pre at p0
  have hpreB : sumBits pre ≤ 1 ∧ sumRefs pre = 0 ∧ (∀ i ∈ pre, i.Ok) ∧ flatE (pre.map (·.e)) = (if signed then Enc.nil else sigEnc none) := by
    subst hpre
    cases signed with
    | true => exact ⟨by decide, rfl, (fun i hi => by cases hi), rfl⟩
    | false =>
      refine ⟨by decide, rfl, fun i hi => ?_, Enc.append_nil _⟩
      · rw [if_neg (by decide), List.mem_singleton] at hi
        subst hi
        exact ⟨Or.inl (by simp [sigEnc, Enc.bits]), fun h => by simp [sigEnc, Enc.bits] at h, by show 1 ≤ 1023; omega, by show 0 ≤ 3; omega, by show 1 ≤ 1; omega⟩
  obtain ⟨b1, b2, b3, b4⟩ := hpreB
  obtain ⟨q1, q2⟩ := headers_sum f.ver h f.headers
  let P := pre ++ (f.headers.map (Hdr.item f.ver h) ++ [(⟨⟨32, 0⟩, Enc.bits (natBits 32 f.inputId)⟩ : Item)])
  have hroom' := hroom
  unfold Func.Room at hroom'
  rw [ho] at hroom'
  dsimp only at hroom'
  have hPb : sumBits P = sumBits pre + (headersSize f.ver h f.headers).bits + 32 := by
    simp only [P, sumBits_append, q1, sumBits_cons, sumBits_nil]; omega
  have hPr : sumRefs P = 0 := by simp only [P, sumRefs_append, q2, b2, sumRefs_cons, sumRefs_nil]
  have hPok : ∀ i ∈ P, i.Ok := by
    intro i hi
    simp only [P, List.mem_append, List.mem_map, List.mem_singleton] at hi
    rcases hi with hi | ⟨y, _, rfl⟩ | rfl
    · exact b3 i hi
    · exact y.item_ok _ _
    · exact f1.sizes.ok _ (List.mem_singleton.mpr rfl)
  have hresb : res.refs = ((Val.tuple tokens).size f.ver).refs ∧ res.bits = sumBits pre + (headersSize f.ver h f.headers).bits + (32 + ((Val.tuple tokens).size f.ver).bits) := by
    have hu : (Val.uint 32 f.inputId).size f.ver = ⟨32, 0⟩ := by unfold Val.size; split <;> rfl
    subst hres hpre
    cases signed with
    | true =>
      rw [if_pos rfl, if_pos rfl, hu]
      simp only [Size.add_bits, Size.add_refs, sumBits_nil]
      refine ⟨?_, by omega⟩
      show 0 + (0 + _) = _
      omega
    | false =>
      have hns : (noSignature f.ver).size f.ver = ⟨1, 0⟩ := by
        unfold noSignature
        rw [if_neg (by omega)]
        unfold Val.size; split <;> rfl
      rw [if_neg (by decide), if_neg (by decide), hu, hns]
      simp only [Size.add_bits, Size.add_refs, sumBits_cons, sumBits_nil]
      refine ⟨?_, by omega⟩
      show 0 + (0 + (0 + _)) = _
      omega
  have hpay := f2.sizes
  have hac : Acct f.ver o (P ++ T) res := by
    rcases hreg with hu | hu | ⟨hu1, hu2⟩
    · refine Or.inr (Or.inr ⟨hm, ?_, ?_⟩)
      · rw [hresb.1, sumRefs_append, hPr, hpay.resRefs (Or.inl hu)]; omega
      · have := hpay.resBits
        rw [hresb.2, sumBits_append, hPb]; omega
    · refine Or.inr (Or.inr ⟨hm, ?_, ?_⟩)
      · rw [hresb.1, sumRefs_append, hPr, hpay.resRefs (Or.inr hu)]; omega
      · have := hpay.resBits
        rw [hresb.2, sumBits_append, hPb]; omega
    · refine Or.inl ⟨?_, ?_, fun hx => by omega⟩
      · have := hpay.declBits
        rw [hty] at this
        rw [ho] at hu1
        dsimp only at hu1
        rw [sumBits_append, hPb]; omega
      · have := hpay.declRefs
        rw [hty] at this
        rw [sumRefs_append, hPr]; omega
  have hput : PutAll f.ver (P ++ T) ⟨⟨o, 0⟩, res, []⟩ s3 := (p0.append (p1.append p2)).append p3
  have hPne : P ≠ [] := by simp [P]
  obtain ⟨x, G, k1, k2, _⟩ := packedAt (o := o) (P := P) (R := T) hv (fun i hi => by
      rcases List.mem_append.mp hi with hi | hi
      · exact hPok i hi
      · exact f2.sizes.ok i hi) (by simp [P]) (fun i T' hi => by
      have hle : i.z.bits ≤ sumBits P := by
        cases hP : P with
        | nil => exact absurd hP hPne
        | cons j P' =>
          rw [hP] at hi
          injection hi with hi _
          subst hi
          rw [sumBits_cons]
          omega
      omega) (fun _ => ⟨by omega, hPr⟩) hac hput h4
  have hflat : flatE (P.map (·.e)) = (if signed then Enc.nil else sigEnc none) ++ (flatE (f.headers.map (Hdr.enc h)) ++ Enc.bits (natBits 32 f.inputId)) := by
    simp only [P, List.map_append, flatE_append, b4, List.map_map, List.map_cons, List.map_nil, flatE_one]
    rfl
  have hcont : b.contents = (if signed then Enc.nil else sigEnc none) ++ (flatE (f.headers.map (Hdr.enc h)) ++ Enc.bits (natBits 32 f.inputId)) ++ chainE x G := by
    rw [k1.contents, chainE_append, hflat]
  refine ⟨T, x, G, hty, f2, k2, by rw [hc, hcont], fun n => ?_, ?_, ?_⟩
  · have := k1.link
    cases G with
    | nil => intro hx; omega
    | cons g gs => exact ⟨this.1, fun hx => by omega, this.2.2⟩
  · rw [hc, ho]
    have hok : ∀ i ∈ P ++ T, i.Ok := fun i hi => by
      rcases List.mem_append.mp hi with hi | hi
      · exact hPok i hi
      · exact f2.sizes.ok i hi
    exact bottom_done (o := o) (bottom_all hput (fun i hi => (hok i hi).cover) (Nat.le_refl o) hr0)
      (current_all hput (fun i hi => (hok i hi).bits) (by show o ≤ 1023; omega) hr0) (hput.ready hr0) h4
  · rw [hc]; exact k1.wf.contents_fits.2

end Abi
end Verif
