import Verif.AbiValue
/-!
# Writing a value gives its leaves
-/
set_option linter.unusedVariables false
set_option linter.unusedSimpArgs false
namespace Verif
namespace Abi

/-- The goal for one value. -/
abbrev Written (acc : Cell → Bool) (ver : Ver) (v : Val) : Prop := ∀ s s', Ready s → write acc ver v s = .ok s' → ∃ T, Flat ver v T ∧ PutAll ver T s s'

theorem ite_u (ver : Ver) (a : Nat) : a = if ver.useMax = true then a else a := by split <;> rfl

theorem ne_of_len {l : Bits} {n : Nat} (h : l.length = n) (hn : 0 < n) : l ≠ [] := by
  rintro rfl
  simp at h
  omega

theorem written_uint {acc : Cell → Bool} {ver : Ver} {n v : Nat} (hg : Good ver (.uint n v)) : Written acc ver (.uint n v) := by
  intro s s' hr h
  simp only [write] at h
  simp only [Good] at hg
  obtain ⟨h1, h2, h3⟩ := hg
  rw [Big.storeU_ok h2 h3] at h
  refine leaf_one (Big.truncU _ h2).writes h hr fun _ => ?_
  have hl : (natBits n v).length = n := natBits_length _ _
  refine flat_bits rfl (ne_of_len hl h1) rfl h2 rfl rfl (Nat.le_of_eq hl.symm) (Nat.le_of_eq hl) ?_ fun part => ?_
  · show n = if ver.useMax = true then n else (natBits n v).length
    rw [hl]; exact ite_u ver n
  · refine (Dec.leaf ((Big.loadU_takes h2 (Nat.le_refl _)).reads_nat h3) h1 (Nat.le_of_eq hl.symm) (fun v => Val.uint n v)).congr fun last => ?_
    simp only [Val.type, load]

theorem written_int {acc : Cell → Bool} {ver : Ver} {n : Nat} {x : Int} (hg : Good ver (.int n x)) : Written acc ver (.int n x) := by
  intro s s' hr h
  simp only [write] at h
  simp only [Good] at hg
  obtain ⟨h1, h2, h3⟩ := hg
  rw [Big.storeI_ok h2 h3] at h
  refine leaf_one (Big.truncI _ h2).writes h hr fun _ => ?_
  have hl : (Big.twoBits n x).length = n := Big.twoBits_length _ _
  refine flat_bits rfl (ne_of_len hl h1) rfl h2 rfl rfl (Nat.le_of_eq hl.symm) (Nat.le_of_eq hl) ?_ fun part => ?_
  · show n = if ver.useMax = true then n else (Big.twoBits n x).length
    rw [hl]; exact ite_u ver n
  · refine (Dec.leaf (Big.reads_int (Big.loadI_takes h2 (Nat.le_refl _)) h3) h1 (Nat.le_of_eq hl.symm) (fun v => Val.int n v)).congr fun last => ?_
    simp only [Val.type, load]

theorem written_bool {acc : Cell → Bool} {ver : Ver} {b : Bool} : Written acc ver (.bool b) := by
  intro s s' hr h
  simp only [write] at h
  refine leaf_one (Wr.writes_bit b).writes h hr fun _ => ?_
  refine flat_bits rfl (List.cons_ne_nil _ _) rfl (by decide) rfl rfl (Nat.le_refl 1) (Nat.le_refl 1) (ite_u ver 1) fun part => ?_
  refine (Dec.leaf (Rd.reads_bit b) (Nat.one_pos) (Nat.le_refl 1) (fun v => Val.bool v)).congr fun last => ?_
  simp only [Val.type, load]

theorem written_cell {acc : Cell → Bool} {ver : Ver} (hv : 1 ≤ ver.major) {c : Cell} : Written acc ver (.cell c) := by
  intro s s' hr h
  simp only [write] at h
  refine leaf_one (Wr.writes_ref c).writes h hr fun _ => ?_
  refine flat_ref rfl rfl rfl fun part => ?_
  refine (Dec.refLeaf hv (f := fun c => Pure.pure (Val.cell c)) (fun s => rfl)).congr fun last => ?_
  simp only [Val.type, load]

theorem addr_len {a : IntAddr} (h : a.Ok) : a.bitLen ≤ 591 ∧ 1 ≤ a.bitLen := by
  have any : ∀ o : Option Anycast, optOk Anycast.Ok o → anycastLen o ≤ 36 := by
    intro o ho
    cases o with
    | none => exact Nat.zero_le _
    | some x =>
      have h : x.Ok := ho
      show 5 + x.depth ≤ 36
      have := h.2.1
      omega
  cases a with
  | std a =>
    have := any _ h.1
    show 2 + 1 + 8 + 256 + anycastLen a.anycast ≤ 591 ∧ 1 ≤ 2 + 1 + 8 + 256 + anycastLen a.anycast
    omega
  | var a =>
    have := any _ h.1
    have h2 : a.len ≤ 511 := h.2.1
    show 2 + 1 + 9 + 32 + a.len + anycastLen a.anycast ≤ 591 ∧ 1 ≤ 2 + 1 + 9 + 32 + a.len + anycastLen a.anycast
    omega

theorem written_address {acc : Cell → Bool} {ver : Ver} {a : IntAddr} (hg : Good ver (.address a)) : Written acc ver (.address a) := by
  intro s s' hr h
  simp only [write] at h
  simp only [Good] at hg
  obtain ⟨c1, c2⟩ := C47_int (ρ := Cell)
  obtain ⟨w1, w2, w3⟩ := c2 a hg
  obtain ⟨l1, l2⟩ := addr_len hg
  refine leaf_one w1.writes h hr fun _ => ?_
  refine flat_bits w3 (ne_of_len w2 l2) rfl ?_ rfl rfl (Nat.le_of_eq w2.symm) ?_ ?_ fun part => ?_
  · show (if ver.useMax = true then 591 else a.bitLen) ≤ 1023
    split <;> omega
  · show _ ≤ 591
    omega
  · show (if ver.useMax = true then 591 else a.bitLen) = if ver.useMax = true then 591 else _
    rw [w2]
  · refine (Dec.leaf (Tlb.intAddr_sound.ld.reads a _ (Tlb.intAddr_sound.st.canon a hg)) Nat.one_pos (by show 1 ≤ (a.enc : Enc Cell).1.length; omega) (fun v => Val.address v)).congr fun last => ?_
    simp only [Val.type, load]
    rfl

theorem token_len {v : Nat} (h : v ≤ VarKind.tokens.max) : (Tlb.tokens.enc v : Enc Cell).1.length = (VarKind.tokens.bitLen v).getD 124 ∧
    (Tlb.tokens.enc v : Enc Cell).1.length ≤ 124 ∧ 1 ≤ (Tlb.tokens.enc v : Enc Cell).1.length := by
  obtain ⟨h1, _⟩ := tokens_size (v := v) h
  have h2 : (Tlb.tokens.enc v : Enc Cell).1.length ≤ 124 := (tokens_enc_small h).1
  refine ⟨?_, h2, ?_⟩
  · rw [h1]
    unfold VarKind.unwrapBitLen VarKind.bitLen
    by_cases hb : VarKind.tokens.bytes v > VarKind.tokens.maxBytes
    · rw [if_pos hb, if_pos hb]; rfl
    · rw [if_neg hb, if_neg hb]; rfl
  · rw [h1]
    unfold VarKind.unwrapBitLen
    split
    · exact (by decide : 1 ≤ VarKind.tokens.maxBits)
    · have : VarKind.tokens.lenBits = 4 := rfl
      omega

theorem written_token {acc : Cell → Bool} {ver : Ver} {v : Nat} (hg : Good ver (.token v)) : Written acc ver (.token v) := by
  intro s s' hr h
  simp only [write] at h
  simp only [Good] at hg
  obtain ⟨t1, t2, t3⟩ := token_len hg
  have hw := Tlb.tokens_sound.st.writes v hg
  refine leaf_one hw h hr fun _ => ?_
  refine flat_bits rfl (ne_of_len rfl t3) rfl ?_ rfl rfl (Nat.le_of_eq t1.symm) t2 ?_ fun part => ?_
  · show (if ver.useMax = true then 124 else (VarKind.tokens.bitLen v).getD 124) ≤ 1023
    split <;> omega
  · show (if ver.useMax = true then 124 else (VarKind.tokens.bitLen v).getD 124) = if ver.useMax = true then 124 else (Tlb.tokens.enc v : Enc Cell).1.length
    rw [t1]
  · refine (Dec.leaf (Tlb.tokens_sound.ld.reads v _ (Tlb.tokens_sound.st.canon v hg)) Nat.one_pos t3 (fun v => Val.token v)).congr fun last => ?_
    simp only [Val.type, load]

theorem varint_put {ver : Ver} {n : Nat} {x : Int} {s s' : Ser} (hn : n ≤ 255) (h : writeVarint ver n x s = .ok s') :
    signedBytesBe x ≠ [] ∧ (signedBytesBe x).length ≤ n - 1 ∧
    put ver ⟨lenBits n + (if ver.useMax then (n - 1) * 8 else (signedBytesBe x).length * 8), 0⟩
      (Wr.small (signedBytesBe x).length (lenBits n) >>= fun _ => Wr.raw (signedBytesBe x) ((signedBytesBe x).length * 8)) s = .ok s' := by
  unfold writeVarint at h
  dsimp only at h
  by_cases hc : (signedBytesBe x).length > n - 1
  · rw [if_pos hc] at h; cases h
  · rw [if_neg hc] at h
    exact ⟨(signed_spec x).1, by omega, h⟩

/-- Both kinds of variable-length integers. -/
theorem written_var {acc : Cell → Bool} {ver : Ver} {n : Nat} {x : Int} {v : Val} (f : List Byte → Val) (hn : n ≤ 255) (hu : ver.useMax = true → n ≤ 128)
    (hw : ∀ s, write acc ver v s = writeVarint ver n x s) (hm : v.type.max = ⟨lenBits n + (n - 1) * 8, 0⟩)
    (he : v.exact = ⟨lenBits n + Nat.max 8 (8 * ((Big.bitLen x.natAbs + 7) / 8)), 0⟩)
    (hld : ∀ part last, load ver part v.type last = loadVarRaw n >>= fun b => Pure.pure (f b)) (hf : f (signedBytesBe x) = v) : Written acc ver v := by
  intro s s' hr h
  rw [hw] at h
  obtain ⟨h1, h2, h3⟩ := varint_put hn h
  have hb := (signed_spec x).2.2.2
  refine leaf_one (writes_var hn h1 h2) h3 hr fun hfit => ?_
  have hp := List.length_pos_iff.mpr h1
  obtain ⟨q1, q2, q3⟩ := lenBits_spec hn hp h2
  obtain ⟨l1, l2⟩ := varLeaf_bits n (signedBytesBe x)
  have hfit1 : (varLeaf n (signedBytesBe x)).1.length ≤ 1023 := hfit.1
  refine flat_bits l2 (ne_of_len l1 (by omega)) rfl ?_ (by rw [hm]) (by rw [he]) ?_ ?_ ?_ fun part => ?_
  · show lenBits n + _ ≤ 1023
    cases hx : ver.useMax with
    | true =>
      have h128 := hu hx
      have h7 : lenBits n ≤ 7 := Big.bitLen_le.mpr (by omega)
      simp only [if_true]
      omega
    | false =>
      simp only [Bool.false_eq_true, if_false]
      omega
  · rw [he, l1]
    show lenBits n + Nat.max 8 _ ≤ _
    have : Nat.max 8 (8 * ((Big.bitLen x.natAbs + 7) / 8)) = max 8 (8 * ((Big.bitLen x.natAbs + 7) / 8)) := rfl
    omega
  · rw [hm, l1]
    show _ ≤ lenBits n + (n - 1) * 8
    have : (signedBytesBe x).length * 8 ≤ (n - 1) * 8 := Nat.mul_le_mul_right _ h2
    omega
  · rw [hm, l1]
    show lenBits n + _ = if ver.useMax = true then lenBits n + (n - 1) * 8 else _
    split <;> rfl
  · rw [← hf]
    have := Dec.var (ver := ver) hn h1 h2 (by omega) f
    rw [hf] at this ⊢
    exact this.congr fun last => hld part last

theorem written_varuint {acc : Cell → Bool} {ver : Ver} {n v : Nat} (hg : Good ver (.varuint n v)) : Written acc ver (.varuint n v) := by
  simp only [Good] at hg
  refine written_var (x := (v : Int)) (fun b => .varuint n (natOfBits (bytesToBits b))) hg.1 hg.2 (fun s => by simp only [write]) rfl rfl (fun part last => by simp only [Val.type, load]) ?_
  rw [(signed_spec v).2.1 (by omega)]
  rfl

theorem written_varint {acc : Cell → Bool} {ver : Ver} {n : Nat} {x : Int} (hg : Good ver (.varint n x)) : Written acc ver (.varint n x) := by
  simp only [Good] at hg
  refine written_var (x := x) (fun b => .varint n (Big.sint (bytesToBits b))) hg.1 hg.2.1 (fun s => by simp only [write]) rfl rfl (fun part last => by simp only [Val.type, load]) ?_
  show Val.varint n _ = _
  rw [(signed_spec x).2.2.1]
  intro hx
  have := hg.2.2 hx
  have e : signedBytesBe x = (Big.toBytesLe x.natAbs).reverse := if_neg (by omega)
  rwa [e, List.length_reverse]

theorem Dec.bytes {ver : Ver} (hv : 1 ≤ ver.major) {c : Cell} {d : List Byte} (h : readBytes c = .ok d) : Dec ver (fun last => loadBytes ver last) d [Enc.ref c] := by
  refine Dec.refLeaf hv (f := fun c => give (readBytes c)) fun s => ?_
  unfold give
  rw [h]

theorem bytes_put {acc : Cell → Bool} {ver : Ver} {d : List Byte} {s s' : Ser} (h : (bytesCell acc ver d >>= fun c => put ver ⟨0, 1⟩ (Wr.ref c) s) = .ok s') :
    ∃ c, readBytes c = .ok d ∧ put ver ⟨0, 1⟩ (Wr.ref c) s = .ok s' := by
  cases hc : bytesCell acc ver d with
  | error x => rw [hc] at h; cases h
  | ok c => rw [hc] at h; exact ⟨c, bytesCell_spec hc, h⟩

theorem written_bytes {acc : Cell → Bool} {ver : Ver} (hv : 1 ≤ ver.major) {d : List Byte} : Written acc ver (.bytes d) := by
  intro s s' hr h
  simp only [write] at h
  obtain ⟨c, h1, h2⟩ := bytes_put h
  refine leaf_one (Wr.writes_ref c).writes h2 hr fun _ => ?_
  refine flat_ref rfl rfl rfl fun part => ?_
  refine ((Dec.bytes hv h1).map (fun d => Val.bytes d)).congr fun last => ?_
  simp only [Val.type, load]

theorem written_fixedBytes {acc : Cell → Bool} {ver : Ver} (hv : 1 ≤ ver.major) {d : List Byte} : Written acc ver (.fixedBytes d) := by
  intro s s' hr h
  simp only [write] at h
  obtain ⟨c, h1, h2⟩ := bytes_put h
  refine leaf_one (Wr.writes_ref c).writes h2 hr fun _ => ?_
  refine flat_ref rfl rfl rfl fun part => ?_
  refine ((Dec.bytes hv h1).check (c := fun x => x.length != d.length) (fun d => Val.fixedBytes d) (by simp)).congr fun last => ?_
  simp only [Val.type, load]

theorem written_string {acc : Cell → Bool} {ver : Ver} (hv : 1 ≤ ver.major) {d : List Byte} (hg : Good ver (.string d)) : Written acc ver (.string d) := by
  intro s s' hr h
  simp only [write] at h
  simp only [Good] at hg
  obtain ⟨c, h1, h2⟩ := bytes_put h
  refine leaf_one (Wr.writes_ref c).writes h2 hr fun _ => ?_
  refine flat_ref rfl rfl rfl fun part => ?_
  refine ((Dec.bytes hv h1).check (c := fun x => !utf8 x) (fun d => Val.string d) (by simp [hg])).congr fun last => ?_
  simp only [Val.type, load]

/-! ### Optional values and references -/

theorem written_absent {acc : Cell → Bool} {ver : Ver} {t : Ty} : Written acc ver (.absent t) := by
  intro s s' hr h
  simp only [write] at h
  refine leaf_one (Wr.writes_bit false).writes h hr fun _ => ?_
  have hmt : (Val.absent t).type.max = optMax t := optMax_type t
  have hopt : 1 ≤ (optMax t).bits ∧ (optMax t).bits ≤ 1023 ∧ (optMax t).refs ≤ 3 := by
    unfold optMax
    by_cases hs : t.max.small = true
    · rw [if_pos hs]
      unfold Size.small at hs
      rw [decide_eq_true_eq] at hs
      dsimp only
      omega
    · rw [if_neg hs]; decide
  have he : (Val.absent t).exact = ⟨1, 0⟩ := rfl
  have hm : ∀ {z : Size} {P : Item → Prop}, P ⟨z, Enc.bits [false]⟩ → ∀ i ∈ [(⟨z, Enc.bits [false]⟩ : Item)], P i := by
    intro z P hp i hi
    rw [List.mem_singleton] at hi
    rw [hi]; exact hp
  have hsz : (Val.absent t).size ver = if ver.useMax = true then optMax t else ⟨1, 0⟩ := by
    cases hu : ver.useMax with
    | true => rw [size_max hu, hmt, if_pos rfl]
    | false => rw [size_exact hu, he, if_neg (by decide)]
  have hz : (if ver.useMax = true then optMax t else ⟨1, 0⟩ : Size).bits ≤ (optMax t).bits ∧ (if ver.useMax = true then optMax t else ⟨1, 0⟩ : Size).refs ≤ (optMax t).refs := by
    split
    · exact ⟨Nat.le_refl _, Nat.le_refl _⟩
    · exact ⟨hopt.1, Nat.zero_le _⟩
  have hz9 : 1 ≤ (if ver.useMax = true then optMax t else ⟨1, 0⟩ : Size).bits := by
    split
    · exact hopt.1
    · exact Nat.le_refl 1
  have hz0 : ver.useMax = false → (if ver.useMax = true then optMax t else ⟨1, 0⟩ : Size) = ⟨1, 0⟩ := fun hu => if_neg (by rw [hu]; decide)
  generalize (if ver.useMax = true then optMax t else ⟨1, 0⟩ : Size) = z at hz hsz hz0 hz9
  refine ⟨by simp, ?_, fun part => ?_⟩
  · rw [hmt, he, hsz]
    constructor
    · refine hm ⟨Or.inl (List.cons_ne_nil _ _), fun h => absurd h (List.cons_ne_nil _ _), ?_, ?_, hz9⟩
      · show z.bits ≤ 1023; omega
      · show z.refs ≤ 3; omega
    · rfl
    · exact Nat.le_refl _
    · show 1 ≤ _; omega
    · exact Nat.zero_le _
    · simp only [sumBits_cons, sumBits_nil]; omega
    · simp only [sumRefs_cons, sumRefs_nil]; omega
    · simp only [sumBits_cons, sumBits_nil]; omega
    · intro _; simp only [sumRefs_cons, sumRefs_nil]; omega
    · intro _; exact hm (Nat.zero_le _)
    · intro hu _; rw [hz0 hu]; exact hm rfl
    · rintro i hi h; injection hi with hi _; subst hi; cases h
    · rintro _ i r hi; injection hi with hi _; subst hi; exact List.cons_ne_nil _ _
  · intro last s g gs rest ha hl hlast
    obtain ⟨s1, g1, gs1, k1, k2, k3⟩ := ha.front (e := Enc.bits [false]) (rest := rest) (by simpa using hl) Nat.one_pos (Nat.le_refl 1)
    obtain ⟨s2, m1, m2⟩ := k2.step (Rd.reads_bit false)
    refine ⟨s2, g1, gs1, ?_, m2, k3⟩
    simp only [Val.type, load]
    rw [Prog.bind_ok k1, Prog.bind_ok m1]
    rfl

theorem loadInside_dec {ver : Ver} (hv : 1 ≤ ver.major) {part : Bool} {t : Ty} {v : Val} {e : Enc Cell}
    (h : whole part (load ver part t true) (Sl.reader ⟨e.1, e.2⟩) = .ok v) : Dec ver (fun last => loadInside ver part last (load ver part t true)) v [Enc.ref (Tlb.cellOf e)] := by
  refine Dec.refLeaf hv (f := fun c => give (asSlice c >>= fun sl => whole part (load ver part t true) sl.reader)) fun s => ?_
  unfold give
  have : asSlice (Tlb.cellOf e) = .ok ⟨e.1, e.2⟩ := rfl
  rw [this]
  show (whole part (load ver part t true) (Sl.reader ⟨e.1, e.2⟩), s) = _
  rw [h]

theorem written_ref {acc : Cell → Bool} {ver : Ver} (hv : 1 ≤ ver.major) {v : Val} (ih : Written acc ver v) (hg : Regular ver v) : Written acc ver (.ref v) := by
  intro s s' hr h
  simp only [write] at h
  cases hc : child acc (v.size ver) (write acc ver v) with
  | error x => rw [hc] at h; cases h
  | ok b =>
    rw [hc] at h
    change (build acc b >>= fun c => put ver ⟨0, 1⟩ (Wr.ref c) s) = _ at h
    cases hb : build acc b with
    | error x => rw [hb] at h; cases h
    | ok c =>
      rw [hb] at h
      change put ver ⟨0, 1⟩ (Wr.ref c) s = _ at h
      obtain ⟨T, g, G, hf, hp, he, _⟩ := child_spec hv ih hg hc
      refine leaf_one (Wr.writes_ref c).writes h hr fun _ => ?_
      refine flat_ref rfl rfl rfl fun part => ?_
      rw [build_ok hb]
      refine ((loadInside_dec hv (e := b.contents) (read_own hf hp he part)).map (fun v => Val.ref v)).congr fun last => ?_
      simp only [Val.type, load]

/-- A leaf that begins with a bit. -/
theorem flat_opt {ver : Ver} {t : Ty} {v : Val} {z : Size} {e : Leaf} {u : Enc Cell} (he : e = Enc.bits [true] ++ u) (h3 : (Val.present t v).exact.bits ≤ e.1.length)
    (h2 : (Val.present t v).exact.refs = e.2.length) (h4 : e.1.length ≤ (optMax t).bits) (h4r : e.2.length ≤ (optMax t).refs)
    (hz : z = if ver.useMax then optMax t else ⟨e.1.length, e.2.length⟩) (hb : (optMax t).bits ≤ 1023 ∧ (optMax t).refs ≤ 3)
    (hd : ∀ part, Dec ver (load ver part (.optional t)) (.present t v) [e]) : Flat ver (.present t v) [⟨z, e⟩] := by
  have hne : e.1 ≠ [] := by rw [he]; exact List.cons_ne_nil _ _
  have hmt : (Val.present t v).type.max = optMax t := optMax_type t
  have hm : ∀ {P : Item → Prop}, P ⟨z, e⟩ → ∀ i ∈ [(⟨z, e⟩ : Item)], P i := by
    intro P hp i hi
    rw [List.mem_singleton] at hi
    rw [hi]; exact hp
  have hzb : z.bits ≤ (optMax t).bits ∧ z.refs ≤ (optMax t).refs := by
    rw [hz]
    split
    · exact ⟨Nat.le_refl _, Nat.le_refl _⟩
    · exact ⟨h4, h4r⟩
  have hz0 : ver.useMax = false → z = ⟨e.1.length, e.2.length⟩ := fun hu => by rw [hz]; exact if_neg (by rw [hu]; decide)
  have hz1 : ver.useMax = true → z = optMax t := fun hu => by rw [hz]; exact if_pos hu
  have hsz : ((Val.present t v).size ver).bits ≤ z.bits ∧ ((Val.present t v).size ver).refs = z.refs := by
    cases hu : ver.useMax with
    | true => rw [size_max hu, hmt, hz1 hu]; exact ⟨Nat.le_refl _, rfl⟩
    | false => rw [size_exact hu, hz0 hu]; exact ⟨h3, h2⟩
  refine ⟨by simp, ?_, hd⟩
  rw [hmt]
  constructor
  · refine hm ⟨Or.inl hne, fun h => absurd h hne, ?_, ?_, ?_⟩
    · show z.bits ≤ 1023; omega
    · show z.refs ≤ 3; omega
    · show e.1.length ≤ z.bits
      cases hu : ver.useMax with
      | true => have := hz1 hu; subst this; exact h4
      | false => rw [hz0 hu]
  · simp only [eRefs_cons, eRefs_nil]; omega
  · simp only [eBits_cons, eBits_nil]; omega
  · simp only [eBits_cons, eBits_nil]; omega
  · simp only [eRefs_cons, eRefs_nil]; omega
  · simp only [sumBits_cons, sumBits_nil]; omega
  · simp only [sumRefs_cons, sumRefs_nil]; omega
  · simp only [sumBits_cons, sumBits_nil]; omega
  · intro _; simp only [sumRefs_cons, sumRefs_nil]; omega
  · intro hu; exact hm (P := fun i => i.e.2.length ≤ i.z.refs) (by rw [hz0 hu])
  · intro hu _; exact hm (P := fun i => i.e.2.length = i.z.refs) (by rw [hz0 hu])
  · rintro i hi h; injection hi with hi _; subst hi; exact absurd h hne
  · rintro _ i r hi; injection hi with hi _; subst hi; exact hne

theorem written_present {acc : Cell → Bool} {ver : Ver} (hv : 1 ≤ ver.major) {v : Val} (ih : Written acc ver v)
    (hg : if v.type.max.small then v.type.max.bits + v.type.fixed ≤ 1023 else Regular ver v) : Written acc ver (.present v.type v) := by
  intro s s' hr h
  simp only [write] at h
  cases hc : child acc (v.size ver) (write acc ver v) with
  | error x => rw [hc] at h; cases h
  | ok b =>
    rw [hc] at h
    change (storePresent acc v.type b >>= fun w => put ver _ w s) = _ at h
    unfold storePresent at h
    by_cases hs : v.type.max.small = true
    · rw [if_pos hs] at hg h
      change put ver _ (Wr.bit true >>= fun _ => Wr.builder b) s = _ at h
      have hsm := hs
      unfold Size.small at hsm
      rw [decide_eq_true_eq] at hsm
      obtain ⟨T, g, G, hf, hp, he, hG⟩ := child_spec hv ih (Or.inr (Or.inr ⟨hg, by omega⟩)) hc
      have hG := hG hg (by omega)
      subst hG
      have hgT : g = T.map (·.e) := by simpa using he
      subst hgT
      have hbc : b.contents = flatE (T.map (·.e)) := hp.contents
      have hbl : b.inner.bits.length = eBits T := by rw [← flatE_bits, ← hbc]; rfl
      have hrl : b.refs.length = eRefs T := by rw [← flatE_refs, ← hbc]; rfl
      have hw : Writes (Wr.bit true >>= fun _ => Wr.builder b) (Enc.bits [true] ++ flatE (T.map (·.e))) := by
        rw [← hbc]
        exact (Wr.writes_bit true).writes.seq (f := fun _ => Wr.builder b) (Wr.writes_builder hp.wf).writes
      have l1 : (Enc.bits [true] ++ flatE (T.map (·.e)) : Enc Cell).1.length = 1 + eBits T := by
        rw [Enc.append_fst, List.length_append, flatE_bits]; rfl
      have l2 : (Enc.bits [true] ++ flatE (T.map (·.e)) : Enc Cell).2.length = eRefs T := by
        rw [Enc.append_snd, List.length_append, flatE_refs]; exact Nat.zero_add _
      have hom : optMax v.type = ⟨1 + v.type.max.bits, v.type.max.refs⟩ := if_pos hs
      refine leaf_one hw h hr fun _ => ?_
      have hex : (Val.present v.type v).exact = ⟨1 + v.exact.bits, v.exact.refs⟩ := by
        show (if v.type.max.small = true then ⟨1, 0⟩ + v.exact else ⟨1, 1⟩ : Size) = _
        rw [if_pos hs, one_add]
      have s1 := hf.sizes.exactBits
      have s2 := hf.sizes.exactRefs
      have s3 := hf.sizes.maxBits
      have s4 := hf.sizes.maxRefs
      refine flat_opt rfl ?_ ?_ ?_ ?_ ?_ ?_ fun part => ?_
      · rw [hex, l1]; show 1 + _ ≤ _; omega
      · rw [hex, l2]; exact s2
      · rw [hom, l1]; show _ ≤ 1 + _; omega
      · rw [hom, l2]; exact s4
      · rw [l1, l2, if_pos hs, hbl, hrl]
      · rw [hom]; dsimp only; omega
      · intro last s g gs rest ha hl hlast
        obtain ⟨s1, g1, gs1, k1, k2, k3⟩ := ha.front (e := Enc.bits [true] ++ flatE (T.map (·.e))) (rest := rest) (n := 1) (by simpa using hl) Nat.one_pos (by rw [l1]; omega)
        obtain ⟨s2, m1, m2⟩ := k2.part (flat_solid hf) (Rd.reads_bit true)
        obtain ⟨s3, g3, gs3, r1, r2, r3⟩ := hf.dec part last s2 _ gs1 rest m2 (by rw [List.append_assoc, k3]) hlast
        refine ⟨s3, g3, gs3, ?_, r2, r3⟩
        simp only [load]
        rw [Prog.bind_ok k1, Prog.bind_ok m1, if_pos rfl, if_pos hs, Prog.bind_ok r1]
        rfl
    · rw [if_neg hs] at hg h
      cases hb : build acc b with
      | error x => rw [hb] at h; cases h
      | ok c =>
        rw [hb] at h
        change put ver _ (Wr.bit true >>= fun _ => Wr.ref c) s = _ at h
        obtain ⟨T, g, G, hf, hp, he, _⟩ := child_spec hv ih hg hc
        have hw : Writes (Wr.bit true >>= fun _ => Wr.ref c) (Enc.bits [true] ++ Enc.ref c) :=
          (Wr.writes_bit true).writes.seq (f := fun _ => Wr.ref c) (Wr.writes_ref c).writes
        refine leaf_one hw h hr fun _ => ?_
        have hom : optMax v.type = ⟨1, 1⟩ := if_neg hs
        have hex : (Val.present v.type v).exact = ⟨1, 1⟩ := if_neg hs
        refine flat_opt rfl ?_ ?_ ?_ ?_ ?_ ?_ fun part => ?_
        · rw [hex]; exact Nat.le_refl 1
        · rw [hex]; rfl
        · rw [hom]; exact Nat.le_refl 1
        · rw [hom]; exact Nat.le_refl 1
        · rw [if_neg hs]; rfl
        · rw [hom]; decide
        · intro last s g gs rest ha hl hlast
          obtain ⟨s1, g1, gs1, k1, k2, k3⟩ := ha.front (e := Enc.bits [true] ++ Enc.ref c) (rest := rest) (n := 1) (by simpa using hl) Nat.one_pos (by show 1 ≤ List.length ([true] ++ []); decide)
          have k2' : At ver s1 ((Enc.bits [true] ++ flatE [Enc.ref c]) :: g1) gs1 := by rw [flatE_one]; exact k2
          obtain ⟨s2, m1, m2⟩ := k2'.part (by intro e he; rw [List.mem_singleton] at he; subst he; exact Or.inr ⟨c, rfl⟩) (Rd.reads_bit true)
          have hd := loadInside_dec hv (e := b.contents) (read_own hf hp he part)
          rw [← build_ok hb] at hd
          obtain ⟨s3, g3, gs3, r1, r2, r3⟩ := hd last s2 _ gs1 rest m2 (by rw [List.append_assoc, k3]) hlast
          refine ⟨s3, g3, gs3, ?_, r2, r3⟩
          simp only [load]
          rw [Prog.bind_ok k1, Prog.bind_ok m1, if_pos rfl, if_neg hs, Prog.bind_ok r1]
          rfl

/-! ### Dictionaries -/

theorem flat_dict {ver : Ver} {v : Val} {z : Size} {e : Leaf} {k r : Nat} (hk : 1 ≤ k) (hk2 : k ≤ 33) (hmx : v.type.max = ⟨k, 1⟩) (hex : v.exact = ⟨k, r⟩)
    (h1 : e.1.length = k) (h2 : e.2.length = r) (hr : r ≤ 1) (hf : v.type.fixed ≤ 1) (hzb : z.bits = k + v.type.fixed) (hz1 : z.refs ≤ 1) (hz2 : r ≤ z.refs)
    (hz3 : ver.useMax = true → z.refs = 1) (hz4 : ver.useMax = false → v.noEmptyMap = true → z.refs = r)
    (hd : ∀ part, Dec ver (load ver part v.type) v [e]) : Flat ver v [⟨z, e⟩] := by
  have hne : e.1 ≠ [] := ne_of_len h1 hk
  have hm : ∀ {P : Item → Prop}, P ⟨z, e⟩ → ∀ i ∈ [(⟨z, e⟩ : Item)], P i := by
    intro P hp i hi
    rw [List.mem_singleton] at hi
    rw [hi]; exact hp
  have hsz : (v.size ver).bits = k ∧ (ver.useMax = true ∨ v.noEmptyMap = true → (v.size ver).refs = z.refs) := by
    cases hu : ver.useMax with
    | true => rw [size_max hu, hmx, hz3 hu]; exact ⟨rfl, fun _ => rfl⟩
    | false =>
      rw [size_exact hu, hex]
      refine ⟨rfl, fun h => ?_⟩
      rcases h with h | h
      · cases h
      · exact (hz4 hu h).symm
  refine ⟨by simp, ?_, hd⟩
  rw [hmx, hex]
  constructor
  · refine hm ⟨Or.inl hne, fun h => absurd h hne, ?_, ?_, ?_⟩
    · show z.bits ≤ 1023; omega
    · show z.refs ≤ 3; omega
    · show e.1.length ≤ z.bits; omega
  · simp only [eRefs_cons, eRefs_nil]; omega
  · simp only [eBits_cons, eBits_nil]; omega
  · simp only [eBits_cons, eBits_nil]; omega
  · simp only [eRefs_cons, eRefs_nil]; omega
  · simp only [sumBits_cons, sumBits_nil]; omega
  · simp only [sumRefs_cons, sumRefs_nil]; omega
  · simp only [sumBits_cons, sumBits_nil]; omega
  · intro h; simp only [sumRefs_cons, sumRefs_nil]; have := hsz.2 h; omega
  · intro hu; exact hm (P := fun i => i.e.2.length ≤ i.z.refs) (by show e.2.length ≤ z.refs; omega)
  · intro hu hn; exact hm (P := fun i => i.e.2.length = i.z.refs) (by show e.2.length = z.refs; rw [hz4 hu hn, h2])
  · rintro i hi h; injection hi with hi _; subst hi; exact absurd h hne
  · rintro _ i r hi; injection hi with hi _; subst hi; exact hne

theorem dict_enc (d : Option Cell) : (Tlb.dict.enc d).1.length = 1 ∧ (Tlb.dict.enc d).2.length = if d.isNone then 0 else 1 := by
  cases d <;> exact ⟨rfl, rfl⟩

theorem dict_any (d : Option Cell) : Tlb.dict.ok d := by cases d <;> trivial

theorem dict_reads (d : Option Cell) : Reads Tlb.dict.load (Tlb.dict.enc d) d := Tlb.dict_sound.ld.reads d _ (Tlb.dict_sound.st.canon d (dict_any d))

theorem dict_writes (d : Option Cell) : Writes (Tlb.dict.store d) (Tlb.dict.enc d) := Tlb.dict_sound.st.writes d (dict_any d)

theorem Dec.dict {ver : Ver} {α : Type} {d : Option Cell} {f : Option Cell → Except Err α} {v : α} (h : f d = .ok v) :
    Dec ver (fun _ => preload 1 >>= fun _ => Tlb.dict.load >>= fun d => give (f d)) v [Tlb.dict.enc d] := by
  intro last s g gs rest ha hl hlast
  obtain ⟨s1, g1, gs1, k1, k2, k3⟩ := ha.front (e := Tlb.dict.enc d) (rest := rest) (by simpa using hl) Nat.one_pos (Nat.le_of_eq (dict_enc d).1.symm)
  obtain ⟨s2, m1, m2⟩ := k2.step (dict_reads d)
  refine ⟨s2, g1, gs1, ?_, m2, k3⟩
  show (preload 1 >>= fun _ => Tlb.dict.load >>= fun d => give (f d)) s = _
  rw [Prog.bind_ok k1, Prog.bind_ok m1]
  unfold give
  rw [h]

/-- The leaves of an array with their keys. -/
def keyed : Nat → List Sl → List (Bits × Sl)
  | _, [] => []
  | i, s :: l => (natBits 32 i, s) :: keyed (i + 1) l

theorem keyed_map {i : Nat} {l : List Sl} : (keyed i l).map (fun p => (.ok p.2 : Except Err Sl)) = l.map .ok := by
  induction l generalizing i with
  | nil => rfl
  | cons s l ih => simp only [keyed, List.map_cons, ih]

theorem keyed_nil {i : Nat} {l : List Sl} : keyed i l = [] ↔ l = [] := by
  cases l <;> simp [keyed]

theorem before_iff {a b : Bits} : keyBefore false false a b ↔ natOfBits a < natOfBits b := by
  unfold keyBefore keyInt
  simp

theorem keyed_mem {i : Nat} {l : List Sl} {p : Bits × Sl} (h : p ∈ keyed i l) : ∃ j, i ≤ j ∧ j < i + l.length ∧ p.1 = natBits 32 j := by
  induction l generalizing i with
  | nil => cases h
  | cons s l ih =>
    rcases List.mem_cons.mp h with rfl | h
    · exact ⟨i, Nat.le_refl _, by simp, rfl⟩
    · obtain ⟨j, h1, h2, h3⟩ := ih h
      exact ⟨j, by omega, by simp; omega, h3⟩

theorem keyed_sorted {i : Nat} {l : List Sl} (h : i + l.length ≤ 2 ^ 32) : (keyed i l).Pairwise (fun p q => keyBefore false false p.1 q.1) := by
  induction l generalizing i with
  | nil => exact .nil
  | cons s l ih =>
    rw [List.length_cons] at h
    refine .cons (fun p hp => ?_) (ih (by omega))
    obtain ⟨j, h1, h2, h3⟩ := keyed_mem hp
    rw [before_iff, h3]
    show natOfBits (natBits 32 i) < _
    rw [natOfBits_natBits, natOfBits_natBits, Nat.mod_eq_of_lt (by omega), Nat.mod_eq_of_lt (by omega)]
    omega

/-- The elements of an array as leaves of the dictionary. -/
abbrev WrittenElems (acc : Cell → Bool) (ver : Ver) (t : Ty) (vs : Elems) : Prop := ∀ i d d', writeElems acc ver (fitsLeaf 32 t.max.bits) vs i d = .ok d' →
  ∃ sls, (∀ part, ElemsOf (fun v s => whole part (load ver part t true) s.reader = .ok v) vs sls) ∧ insertAll acc 32 (keyed i sls) d = .ok d'

theorem elems_cons {acc : Cell → Bool} {ver : Ver} (hv : 1 ≤ ver.major) {v : Val} {r : Elems} (ih : Written acc ver v) (hg : Regular ver v) (hi : Inside ver 32 v.type)
    (hr : WrittenElems acc ver v.type r) : WrittenElems acc ver v.type (.cons v r) := by
  intro i d d' h
  simp only [writeElems] at h
  cases hc : child acc (v.size ver) (write acc ver v) with
  | error x => rw [hc] at h; cases h
  | ok b =>
    rw [hc] at h
    change (leafValue acc (fitsLeaf 32 v.type.max.bits) b >>= fun l => setLeaf acc d (natBits 32 i) 32 l >>= fun d => writeElems acc ver (fitsLeaf 32 v.type.max.bits) r (i + 1) d) = _ at h
    cases hl : leafValue acc (fitsLeaf 32 v.type.max.bits) b with
    | error x => rw [hl] at h; cases h
    | ok sl =>
      rw [hl] at h
      change (setLeaf acc d (natBits 32 i) 32 sl >>= fun d => writeElems acc ver (fitsLeaf 32 v.type.max.bits) r (i + 1) d) = _ at h
      cases hs : setLeaf acc d (natBits 32 i) 32 sl with
      | error x => rw [hs] at h; cases h
      | ok d1 =>
        rw [hs] at h
        change writeElems acc ver (fitsLeaf 32 v.type.max.bits) r (i + 1) d1 = _ at h
        obtain ⟨sls, h1, h2⟩ := hr _ _ _ h
        obtain ⟨T, g, G, hf, hp, he, _⟩ := child_spec hv ih hg hc
        refine ⟨sl :: sls, fun part => ⟨read_leaf hf hp he (by decide) hi hl part, h1 part⟩, ?_⟩
        show insertAll acc 32 ((natBits 32 i, sl) :: keyed (i + 1) sls) d = _
        unfold insertAll
        rw [hs]
        exact h2

theorem elems_empty {vs : Elems} : vs.isEmpty = true ↔ vs.length = 0 := by
  cases vs <;> simp [Elems.isEmpty, Elems.length]

/-- What the dictionary of an array is like. -/
theorem array_dict {acc : Cell → Bool} {ver : Ver} {t : Ty} {vs : Elems} {d : Option Cell} (hw : WrittenElems acc ver t vs) (hl : vs.length < 2 ^ 32)
    (h : writeElems acc ver (fitsLeaf 32 t.max.bits) vs 0 none = .ok d) :
    (∀ part, loadValues part (load ver part t true) vs.length (RawValues.new d 32 false false) = .ok vs) ∧ (if d.isNone then 0 else 1) = (if vs.isEmpty then 0 else 1) := by
  obtain ⟨sls, h1, h2⟩ := hw _ _ _ h
  have hlen := (h1 true).length
  obtain ⟨_, f2, _, f4, _⟩ := filled (by decide) (keyed_sorted (i := 0) (l := sls) (by omega)) h2
  rw [keyed_map] at f2
  refine ⟨fun part => loadValues_spec (h1 part) f2, ?_⟩
  rw [keyed_nil, ← List.length_eq_zero_iff, hlen] at f4
  by_cases hn : vs.length = 0
  · rw [f4.mpr hn, elems_empty.mpr hn]; rfl
  · have a1 : vs.isEmpty = false := by
      cases hx : vs.isEmpty with
      | false => rfl
      | true => exact absurd (elems_empty.mp hx) hn
    have a2 : d.isNone = false := by
      cases d with
      | none => exact absurd (f4.mp rfl) hn
      | some _ => rfl
    rw [a1, a2]

theorem bool_ite (b : Bool) : (if b = true then 0 else 1) ≤ 1 := by cases b <;> decide

theorem written_fixedArray {acc : Cell → Bool} {ver : Ver} {t : Ty} {vs : Elems} (hw : WrittenElems acc ver t vs) (hl : vs.length < 2 ^ 32) :
    Written acc ver (.fixedArray t vs) := by
  intro s s' hr h
  simp only [write] at h
  cases hd : writeElems acc ver (fitsLeaf 32 t.max.bits) vs 0 none with
  | error x => rw [hd] at h; cases h
  | ok d =>
    rw [hd] at h
    change put ver _ (Tlb.dict.store d) s = _ at h
    obtain ⟨d1, d2⟩ := array_dict hw hl hd
    obtain ⟨e1, e2⟩ := dict_enc d
    refine leaf_one (dict_writes d) h hr fun _ => ?_
    have hb := bool_ite vs.isEmpty
    refine flat_dict (k := 1) (r := if vs.isEmpty then 0 else 1) (Nat.le_refl _) (by decide) rfl rfl e1 (e2.trans d2) hb (Nat.le_refl 1) rfl ?_ ?_ ?_ ?_ fun part => ?_
    · show (if ver.useMax = true then 1 else if vs.isEmpty = true then 0 else 1) ≤ 1
      split <;> omega
    · show (if vs.isEmpty = true then 0 else 1) ≤ (if ver.useMax = true then 1 else if vs.isEmpty = true then 0 else 1)
      by_cases hu : ver.useMax = true
      · rw [if_pos hu]; exact hb
      · rw [if_neg hu]
    · intro hu; exact if_pos hu
    · intro hu _; exact if_neg (by rw [hu]; decide)
    · refine ((Dec.dict (ver := ver) (f := fun d => loadValues part (load ver part t true) vs.length (RawValues.new d 32 false false)) (d1 part)).check
        (c := fun l => l.length != vs.length) (fun l => Val.fixedArray t l) (by simp)).congr fun last => ?_
      simp only [Val.type, load, loadArray]

theorem written_array {acc : Cell → Bool} {ver : Ver} {t : Ty} {vs : Elems} (hw : WrittenElems acc ver t vs) (hl : vs.length < 2 ^ 32) :
    Written acc ver (.array t vs) := by
  intro s s' hr h
  simp only [write] at h
  cases hd : writeElems acc ver (fitsLeaf 32 t.max.bits) vs 0 none with
  | error x => rw [hd] at h; cases h
  | ok d =>
    rw [hd] at h
    change put ver _ (Wr.u32 vs.length >>= fun _ => Tlb.dict.store d) s = _ at h
    obtain ⟨d1, d2⟩ := array_dict hw hl hd
    obtain ⟨e1, e2⟩ := dict_enc d
    have hwr : Writes (Wr.u32 vs.length >>= fun _ => Tlb.dict.store d) (Enc.bits (natBits 32 vs.length) ++ Tlb.dict.enc d) :=
      (Wr.writes_u32 hl).writes.seq (f := fun _ => Tlb.dict.store d) (dict_writes d)
    have l1 : (Enc.bits (natBits 32 vs.length) ++ Tlb.dict.enc d : Enc Cell).1.length = 33 := by
      rw [Enc.append_fst, List.length_append, e1]
      show (natBits 32 vs.length).length + 1 = 33
      rw [natBits_length]
    have l2 : (Enc.bits (natBits 32 vs.length) ++ Tlb.dict.enc d : Enc Cell).2.length = if vs.isEmpty then 0 else 1 := by
      rw [Enc.append_snd, List.length_append, e2, d2]
      exact Nat.zero_add _
    refine leaf_one hwr h hr fun _ => ?_
    have hb := bool_ite vs.isEmpty
    refine flat_dict (k := 33) (r := if vs.isEmpty then 0 else 1) (by decide) (Nat.le_refl _) rfl rfl l1 l2 hb (Nat.zero_le 1) rfl ?_ ?_ ?_ ?_ fun part => ?_
    · show (if ver.useMax = true then 1 else if vs.isEmpty = true then 0 else 1) ≤ 1
      split <;> omega
    · show (if vs.isEmpty = true then 0 else 1) ≤ (if ver.useMax = true then 1 else if vs.isEmpty = true then 0 else 1)
      by_cases hu : ver.useMax = true
      · rw [if_pos hu]; exact hb
      · rw [if_neg hu]
    · intro hu; exact if_pos hu
    · intro hu _; exact if_neg (by rw [hu]; decide)
    · intro last s g gs rest ha hll hlast
      obtain ⟨s1, g1, gs1, k1, k2, k3⟩ := ha.front (e := Enc.bits (natBits 32 vs.length) ++ Tlb.dict.enc d) (rest := rest) (n := 32) (by simpa using hll) (by decide) (by rw [l1]; decide)
      have k2' : At ver s1 ((Enc.bits (natBits 32 vs.length) ++ flatE [Tlb.dict.enc d]) :: g1) gs1 := by rw [flatE_one]; exact k2
      obtain ⟨s2, m1, m2⟩ := k2'.part (by intro e he; rw [List.mem_singleton] at he; subst he; exact Or.inl (ne_of_len e1 (by decide))) ((Rd.takes_u32 (ρ := Cell)).reads_nat hl)
      obtain ⟨s3, g3, gs3, r1, r2, r3⟩ := Dec.dict (ver := ver) (f := fun d => loadValues part (load ver part t true) vs.length (RawValues.new d 32 false false)) (d1 part)
        last s2 _ gs1 rest m2 (by rw [List.append_assoc, k3]) hlast
      refine ⟨s3, g3, gs3, ?_, r2, r3⟩
      simp only [Val.type, load]
      have r1' : loadArray part (load ver part t true) vs.length s2 = (.ok vs, s3) := r1
      rw [Prog.bind_ok k1, Prog.bind_ok m1, Prog.bind_ok r1']
      rfl

/-! ### Maps -/

theorem reads_map {α β : Type} {p : Rd Cell α} {e : Enc Cell} {v : α} (h : Reads p e v) (f : α → β) : Reads (p >>= fun x => Pure.pure (f x)) e (f v) :=
  (h.bind (f := fun x => Pure.pure (f x)) (Reads.pure (f v))).cast (enc_append_nil e)

theorem key_spec {k : PVal} (hg : k.Good) {sl : Sl} (h : (k.store).toSl = .ok sl) :
    sl.bits = k.bits ∧ (k.type.load (Sl.reader ⟨k.bits, []⟩)).1 = .ok k := by
  have main : ∀ {w : Wr Cell Unit} {e : Enc Cell} {p : Rd Cell PVal}, Writes w e → e.Fits → e.2 = [] → Reads p e k → w.toSl = .ok sl →
      sl.bits = e.1 ∧ (p (Sl.reader ⟨e.1, []⟩)).1 = .ok k := by
    intro w e p hw hf he hp hs
    rw [Wr.toSl_ok hw hf] at hs
    injection hs with hs
    subst hs
    refine ⟨rfl, ?_⟩
    obtain ⟨h1, h2⟩ := Tlb.reader_contents (b := e.1) (r := []) ⟨hf.1, by decide⟩
    obtain ⟨s', r1, _⟩ := hp _ Enc.nil h1 (by rw [h2, enc_append_nil, ← he])
    rw [r1]
  cases k with
  | uint n v =>
    obtain ⟨h1, h2⟩ := hg
    have h' : (Big.storeU v n false : Wr Cell Unit).toSl = .ok sl := h
    rw [Big.storeU_ok h1 h2] at h'
    exact main (Big.truncU _ h1).writes ⟨by show (natBits n v).length ≤ 1023; rw [natBits_length]; exact h1, Nat.zero_le _⟩ rfl
      (reads_map ((Big.loadU_takes h1 (Nat.le_refl _)).reads_nat h2) (fun v => PVal.uint n v)) h'
  | int n x =>
    obtain ⟨h1, h2⟩ := hg
    have h' : (Big.storeI x n true : Wr Cell Unit).toSl = .ok sl := h
    rw [Big.storeI_ok h1 h2] at h'
    exact main (Big.truncI _ h1).writes ⟨by show (Big.twoBits n x).length ≤ 1023; rw [Big.twoBits_length]; exact h1, Nat.zero_le _⟩ rfl
      (reads_map (Big.reads_int (Big.loadI_takes h1 (Nat.le_refl _)) h2) (fun v => PVal.int n v)) h'
  | bool b =>
    exact main (Wr.writes_bit b).writes ⟨by show 1 ≤ 1023; decide, Nat.zero_le _⟩ rfl (reads_map (Rd.reads_bit b) (fun v => PVal.bool v)) h
  | address a =>
    obtain ⟨c1, c2⟩ := C47_int (ρ := Cell)
    obtain ⟨w1, w2, w3⟩ := c2 a hg
    obtain ⟨l1, l2⟩ := addr_len hg
    exact main w1.writes ⟨by rw [w2]; omega, by rw [w3]; exact Nat.zero_le _⟩ w3
      (reads_map (Tlb.intAddr_sound.ld.reads a _ (Tlb.intAddr_sound.st.canon a hg)) (fun v => PVal.address v)) h

/-- The entries of a map as leaves of the dictionary. -/
abbrev WrittenEntries (acc : Cell → Bool) (ver : Ver) (k : PTy) (t : Ty) (es : Entries) : Prop := ∀ d d',
  writeEntries acc ver (fitsLeaf k.bits t.max.bits) k.bits es d = .ok d' → ∃ l, l.map (·.1) = es.keys.map (·.bits) ∧ insertAll acc k.bits l d = .ok d' ∧
    ∀ part, EntriesOf (fun key v p => (k.load (Sl.reader ⟨p.1, []⟩)).1 = .ok key ∧ (load ver part t true p.2.reader).1 = .ok v) es l

theorem whole_ok {part : Bool} {ld : Rd Cell Val} {s : CSlice Cell} {v : Val} (h : whole part ld s = .ok v) : (ld s).1 = .ok v := by
  unfold whole at h
  generalize ld s = out at h
  obtain ⟨r, s'⟩ := out
  cases r with
  | error e => cases h
  | ok x =>
    dsimp only at h ⊢
    cases hc : checkRemaining part s' with
    | error e => rw [hc] at h; cases h
    | ok u => rw [hc] at h; exact h

theorem entries_cons {acc : Cell → Bool} {ver : Ver} (hv : 1 ≤ ver.major) {key : PVal} {v : Val} {r : Entries} (hkg : key.Good) (hk : key.type.bits ≤ 1011)
    (ih : Written acc ver v) (hg : Regular ver v) (hi : Inside ver key.type.bits v.type) (hr : WrittenEntries acc ver key.type v.type r) :
    WrittenEntries acc ver key.type v.type (.cons key v r) := by
  intro d d' h
  simp only [writeEntries] at h
  cases hks : (key.store).toSl with
  | error x => rw [hks] at h; cases h
  | ok ks =>
  rw [hks] at h
  change (child acc (v.size ver) (write acc ver v) >>= fun b => leafValue acc (fitsLeaf key.type.bits v.type.max.bits) b >>= fun l => setLeaf acc d ks.bits key.type.bits l >>= fun d => writeEntries acc ver (fitsLeaf key.type.bits v.type.max.bits) key.type.bits r d) = _ at h
  cases hc : child acc (v.size ver) (write acc ver v) with
  | error x => rw [hc] at h; cases h
  | ok b =>
    rw [hc] at h
    change (leafValue acc (fitsLeaf key.type.bits v.type.max.bits) b >>= fun l => setLeaf acc d ks.bits key.type.bits l >>= fun d => writeEntries acc ver (fitsLeaf key.type.bits v.type.max.bits) key.type.bits r d) = _ at h
    cases hl : leafValue acc (fitsLeaf key.type.bits v.type.max.bits) b with
    | error x => rw [hl] at h; cases h
    | ok sl =>
      rw [hl] at h
      change (setLeaf acc d ks.bits key.type.bits sl >>= fun d => writeEntries acc ver (fitsLeaf key.type.bits v.type.max.bits) key.type.bits r d) = _ at h
      cases hs : setLeaf acc d ks.bits key.type.bits sl with
      | error x => rw [hs] at h; cases h
      | ok d1 =>
        rw [hs] at h
        change writeEntries acc ver (fitsLeaf key.type.bits v.type.max.bits) key.type.bits r d1 = _ at h
        obtain ⟨l, h1, h2, h3⟩ := hr _ _ h
        obtain ⟨k1, k2⟩ := key_spec hkg hks
        obtain ⟨T, g, G, hf, hp, he, _⟩ := child_spec hv ih hg hc
        refine ⟨(key.bits, sl) :: l, ?_, ?_, fun part => ⟨⟨k2, whole_ok (read_leaf hf hp he hk hi hl part)⟩, h3 part⟩⟩
        · rw [List.map_cons, h1]; rfl
        · unfold insertAll
          rw [← k1, hs]
          exact h2

theorem map_length {α β : Type} {f : α → β} {a : List α} {b : List β} (h : a.map f = b) : a.length = b.length := by rw [← h, List.length_map]

theorem nodup_of_bits {l : List PVal} (h : l.Pairwise (fun a b => natOfBits a.bits < natOfBits b.bits)) : l.Nodup :=
  h.imp fun {a b} hab e => by rw [e] at hab; exact absurd hab (Nat.lt_irrefl _)

theorem written_map {acc : Cell → Bool} {ver : Ver} {k : PTy} {t : Ty} {es : Entries} (hk : k.bits ≤ 1011) (hw : WrittenEntries acc ver k t es)
    (ho : es.keys.Pairwise (fun a b => natOfBits a.bits < natOfBits b.bits)) : Written acc ver (.map k t es) := by
  intro s s' hr h
  simp only [write] at h
  cases hd : writeEntries acc ver (fitsLeaf k.bits t.max.bits) k.bits es none with
  | error x => rw [hd] at h; cases h
  | ok d =>
    rw [hd] at h
    change put ver _ (Tlb.dict.store d) s = _ at h
    obtain ⟨l, h1, h2, h3⟩ := hw _ _ hd
    obtain ⟨e1, e2⟩ := dict_enc d
    have hsort : l.Pairwise (fun p q => keyBefore false false p.1 q.1) := by
      have : (l.map (·.1)).Pairwise (fun a b => keyBefore false false a b) := by
        rw [h1, List.pairwise_map]
        exact ho.imp fun hab => before_iff.mpr hab
      rwa [List.pairwise_map] at this
    obtain ⟨f1, _, f3, f4, _⟩ := filled (by omega) hsort h2
    have hload : ∀ part, loadEntries k (load ver part t true) (2 ^ k.bits + 1) (RawIter.new d k.bits false false) .nil = .ok es := fun part => by
      have hnd : (Entries.nil.keys ++ es.keys).Nodup := nodup_of_bits ho
      have := loadEntries_spec (fuel := 2 ^ k.bits + 1) (m := .nil) (h3 part) f1 (by omega) hnd
      exact this
    have hemp : (if d.isNone then 0 else 1) = (if es.isEmpty then 0 else 1) := by
      have hl := map_length h1
      rw [List.length_map] at hl
      cases es with
      | nil =>
        have : l = [] := List.length_eq_zero_iff.mp hl
        rw [f4.mpr this]; rfl
      | cons a b c =>
        cases d with
        | none =>
          rw [f4.mp rfl] at hl
          simp [Entries.keys] at hl
        | some _ => rfl
    refine leaf_one (dict_writes d) h hr fun _ => ?_
    have hb := bool_ite es.isEmpty
    refine flat_dict (k := 1) (r := if es.isEmpty then 0 else 1) (Nat.le_refl _) (by decide) rfl rfl e1 (e2.trans hemp) hb (Nat.zero_le 1) rfl (Nat.le_refl 1) hb (fun _ => rfl) ?_ fun part => ?_
    · intro _ hn
      have : es.isEmpty = false := by
        have : (!es.isEmpty) = true := hn
        cases hx : es.isEmpty with
        | false => rfl
        | true => rw [hx] at this; cases this
      rw [this]; rfl
    · refine ((Dec.dict (ver := ver) (f := fun d => loadEntries k (load ver part t true) (2 ^ k.bits + 1) (RawIter.new d k.bits false false) .nil) (hload part)).map
        (fun m => Val.map k t m)).congr fun last => ?_
      simp only [Val.type, load, loadMap]

/-! ### Tuples -/

theorem Sizes.append {ver : Ver} {m1 m2 e1 e2 s1 s2 : Size} {f1 f2 : Nat} {n1 n2 st1 st2 : Bool} {A B : List Item} (h1 : Sizes ver m1 e1 s1 f1 n1 st1 A)
    (h2 : Sizes ver m2 e2 s2 f2 n2 st2 B) (hne : A ≠ []) (h0 : B = [] → m2.bits = 0) : Sizes ver (m1 + m2) (e1 + e2) (s1 + s2) (f1 + f2) (n1 && n2) st1 (A ++ B) := by
  have ab : ∀ a b : Size, (a + b).bits = a.bits + b.bits := fun _ _ => rfl
  have ar : ∀ a b : Size, (a + b).refs = a.refs + b.refs := fun _ _ => rfl
  have hx : ∀ {P : Item → Prop}, (∀ i ∈ A, P i) → (∀ i ∈ B, P i) → ∀ i ∈ A ++ B, P i := by
    intro P ha hb i hi
    rcases List.mem_append.mp hi with hi | hi
    · exact ha i hi
    · exact hb i hi
  constructor
  · exact hx h1.ok h2.ok
  · rw [ar, eRefs_append, h1.exactRefs, h2.exactRefs]
  · rw [ab, eBits_append]; exact Nat.add_le_add h1.exactBits h2.exactBits
  · rw [ab, eBits_append]; exact Nat.add_le_add h1.maxBits h2.maxBits
  · rw [ar, eRefs_append]; exact Nat.add_le_add h1.maxRefs h2.maxRefs
  · rw [ab, sumBits_append]; have := h1.declBits; have := h2.declBits; omega
  · rw [ar, sumRefs_append]; exact Nat.add_le_add h1.declRefs h2.declRefs
  · rw [ab, sumBits_append]; exact Nat.add_le_add h1.resBits h2.resBits
  · intro h
    rw [ar, sumRefs_append, h1.resRefs, h2.resRefs]
    · rcases h with h | h
      · exact Or.inl h
      · exact Or.inr (Bool.and_eq_true_iff.mp h).2
    · rcases h with h | h
      · exact Or.inl h
      · exact Or.inr (Bool.and_eq_true_iff.mp h).1
  · intro hu; exact hx (h1.low hu) (h2.low hu)
  · intro hu hn
    obtain ⟨a, b⟩ := Bool.and_eq_true_iff.mp hn
    exact hx (h1.same hu a) (h2.same hu b)
  · intro i hi he
    cases A with
    | nil => exact absurd rfl hne
    | cons a A =>
      injection hi with ha hb
      obtain ⟨rfl, rfl⟩ := List.append_eq_nil_iff.mp hb
      subst ha
      rw [ab, h1.single a rfl he, h0 rfl]
  · intro hs i r hi
    cases A with
    | nil => exact absurd rfl hne
    | cons a A =>
      injection hi with ha hb
      subst ha
      exact h1.head hs a A rfl

/-- The items of a tuple as leaves. -/
structure FlatItems (ver : Ver) (l : Items) (T : List Item) : Prop where
  nil : l = .nil ↔ T = []
  sizes : Sizes ver l.types.max l.exact ((Val.tuple l).size ver) l.types.fixed l.noEmptyMap l.types.startsRef T
  dec : ∀ part, Dec ver (loadItems ver part l.types) l (T.map (·.e))

abbrev WrittenItems (acc : Cell → Bool) (ver : Ver) (l : Items) : Prop := ∀ s s', Ready s → writeItems acc ver l s = .ok s' → ∃ T, FlatItems ver l T ∧ PutAll ver T s s'

theorem flat_nil (ver : Ver) : FlatItems ver .nil [] := by
  refine ⟨⟨fun _ => rfl, fun _ => rfl⟩, ?_, fun part => ?_⟩
  · have hs : (Val.tuple .nil).size ver = ⟨0, 0⟩ := by unfold Val.size; split <;> rfl
    rw [hs]
    constructor
    · intro i hi; cases hi
    · rfl
    · exact Nat.le_refl _
    · exact Nat.le_refl _
    · exact Nat.le_refl _
    · exact Nat.le_refl _
    · exact Nat.le_refl _
    · exact Nat.le_refl _
    · intro _; rfl
    · intro _ i hi; cases hi
    · intro _ _ i hi; cases hi
    · intro i hi; cases hi
    · intro _ i r hi; cases hi
  · intro last s g gs rest ha hl _
    exact ⟨s, g, gs, by simp only [Items.types, loadItems]; rfl, ha, hl⟩

theorem tuple_size (ver : Ver) (n : String) (v : Val) (r : Items) : (Val.tuple (.cons n v r)).size ver = v.size ver + (Val.tuple r).size ver := by
  unfold Val.size
  split <;> rfl

theorem flat_cons {ver : Ver} {n : String} {v : Val} {r : Items} {A B : List Item} (h1 : Flat ver v A) (h2 : FlatItems ver r B) : FlatItems ver (.cons n v r) (A ++ B) := by
  refine ⟨⟨fun h => (by cases h), fun h => absurd (List.append_eq_nil_iff.mp h).1 h1.ne⟩, ?_, fun part => ?_⟩
  · rw [tuple_size]
    exact h1.sizes.append h2.sizes h1.ne fun hb => by rw [h2.nil.mpr hb]; rfl
  · rw [List.map_append]
    cases r with
    | nil =>
      rw [h2.nil.mp rfl, List.map_nil, List.append_nil]
      refine ((h1.dec part).map (fun v => Items.cons n v .nil)).congr fun last => ?_
      simp only [Items.types, loadItems, Bool.and_true]
      rfl
    | cons n2 v2 r2 =>
      have hne : B ≠ [] := fun h => by have := h2.nil.mpr h; cases this
      refine ((h1.dec part).seq (h2.dec part) (by simpa using hne) (fun v l => Items.cons n v l)).congr fun last => ?_
      simp only [Items.types]
      rw [loadItems]
      simp only [Bool.and_false]

theorem items_cons {acc : Cell → Bool} {ver : Ver} {n : String} {v : Val} {r : Items} (h1 : Written acc ver v) (h2 : WrittenItems acc ver r) :
    WrittenItems acc ver (.cons n v r) := by
  intro s s' hr h
  simp only [writeItems] at h
  cases hw : write acc ver v s with
  | error x => rw [hw] at h; cases h
  | ok s1 =>
    rw [hw] at h
    obtain ⟨A, a1, a2⟩ := h1 s s1 hr hw
    obtain ⟨B, b1, b2⟩ := h2 s1 s' (a2.ready hr) h
    exact ⟨A ++ B, flat_cons a1 b1, a2.append b2⟩

theorem written_tuple {acc : Cell → Bool} {ver : Ver} {l : Items} (hl : l ≠ .nil) (h : WrittenItems acc ver l) : Written acc ver (.tuple l) := by
  intro s s' hr hw
  simp only [write] at hw
  obtain ⟨T, h1, h2⟩ := h s s' hr hw
  refine ⟨T, ⟨fun e => hl (h1.nil.mpr e), h1.sizes, fun part => ?_⟩, h2⟩
  refine ((h1.dec part).map (fun l => Val.tuple l)).congr fun last => ?_
  simp only [Val.type, load]

mutual
/-- Every value that comes back is written as leaves. -/
theorem written {acc : Cell → Bool} {ver : Ver} (hv : 1 ≤ ver.major) : ∀ v : Val, Good ver v → Written acc ver v
  | .uint n v, h => written_uint h
  | .int n x, h => written_int h
  | .varuint n v, h => written_varuint h
  | .varint n x, h => written_varint h
  | .bool b, _ => written_bool
  | .cell c, _ => written_cell hv
  | .address a, h => written_address h
  | .bytes d, _ => written_bytes hv
  | .fixedBytes d, _ => written_fixedBytes hv
  | .string d, h => written_string hv h
  | .token v, h => written_token h
  | .tuple l, h => by
    simp only [Good] at h
    exact written_tuple h.1 (writtenItems hv l h.2)
  | .array t vs, h => by
    simp only [Good] at h
    exact written_array (writtenElems hv t vs h.2.1 h.2.2) h.1
  | .fixedArray t vs, h => by
    simp only [Good] at h
    exact written_fixedArray (writtenElems hv t vs h.2.1 h.2.2) h.1
  | .map k t es, h => by
    simp only [Good] at h
    exact written_map h.1 (writtenEntries hv k t es h.1 h.2.1 h.2.2.1) h.2.2.2
  | .absent t, _ => written_absent
  | .present t v, h => by
    simp only [Good] at h
    have ih := written (acc := acc) hv v h.2.1
    obtain ⟨h1, h2, h3⟩ := h
    subst h1
    exact written_present hv ih h3
  | .ref v, h => by
    simp only [Good] at h
    exact written_ref hv (written hv v h.1) h.2
theorem writtenItems {acc : Cell → Bool} {ver : Ver} (hv : 1 ≤ ver.major) : ∀ l : Items, GoodItems ver l → WrittenItems acc ver l
  | .nil, _ => fun s s' _ h => by
    simp only [writeItems] at h
    injection h with h
    subst h
    exact ⟨[], flat_nil ver, .nil _⟩
  | .cons n v r, h => by
    simp only [GoodItems] at h
    exact items_cons (written hv v h.1) (writtenItems hv r h.2)
theorem writtenElems {acc : Cell → Bool} {ver : Ver} (hv : 1 ≤ ver.major) (t : Ty) : ∀ vs : Elems, Inside ver 32 t → GoodElems ver t vs → WrittenElems acc ver t vs
  | .nil, _, _ => fun i d d' h => by
    simp only [writeElems] at h
    exact ⟨[], fun _ => trivial, h⟩
  | .cons v r, hi, h => by
    simp only [GoodElems] at h
    have ih := written (acc := acc) hv v h.2.1
    have ih2 := writtenElems (acc := acc) hv t r hi h.2.2.2
    obtain ⟨h1, _, h3, _⟩ := h
    subst h1
    exact elems_cons hv ih h3 hi ih2
theorem writtenEntries {acc : Cell → Bool} {ver : Ver} (hv : 1 ≤ ver.major) (k : PTy) (t : Ty) : ∀ es : Entries, k.bits ≤ 1011 → Inside ver k.bits t →
    GoodEntries ver k t es → WrittenEntries acc ver k t es
  | .nil, _, _, _ => fun d d' h => by
    simp only [writeEntries] at h
    exact ⟨[], rfl, h, fun _ => trivial⟩
  | .cons key v r, hk, hi, h => by
    simp only [GoodEntries] at h
    have ih := written (acc := acc) hv v h.2.2.2.1
    have ih2 := writtenEntries (acc := acc) hv k t r hk hi h.2.2.2.2.2
    obtain ⟨h1, h2, h3, _, h5, _⟩ := h
    subst h1
    subst h3
    exact entries_cons hv h2 hk ih h5 hi ih2
end

end Abi
end Verif
