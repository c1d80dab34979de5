import Verif.MessageLemmas
import Verif.AccountProps
/-
C58: messages are stored and loaded back. C59: the layout that is chosen for the parts of a message.
-/
set_option linter.unusedVariables false
set_option linter.unusedSimpArgs false
namespace Verif

/-! ### Specification -/

section
variable {I B : Type}

/-- The values that a message can have: all its parts can be stored where the layout puts them. -/
structure Msg.Ok (acc : Cell → Bool) (K : InfoKind I) (okB : Bool → B → Prop) (m : Msg I B) (l : Layout) : Prop where
  info : K.tlb.ok m.info
  init : ∀ s, m.init = some s → (placed acc stateInit).ok (l.initToCell, s)
  body : okB l.bodyToCell m.body

/-- The state init in a message: absent, in the root, or in a cell of its own. -/
def initEnc (l : Layout) : Option StateInit → Enc Cell
  | none => Enc.bits [false]
  | some s => Enc.bits [true] ++ (Enc.bits [l.initToCell] ++ if l.initToCell then Enc.ref (Tlb.cellOf (stateInit.enc s)) else stateInit.enc s)

/-- The encoding of a message in a layout: header, state init, a bit that says where the body is, body. -/
def Msg.enc (K : InfoKind I) (encB : Bool → B → Enc Cell) (m : Msg I B) (l : Layout) : Enc Cell :=
  K.tlb.enc m.info ++ (initEnc l m.init ++ (Enc.bits [l.bodyToCell] ++ encB l.bodyToCell m.body))

/-- The layout that is used. -/
def Msg.used (K : InfoKind I) (BK : BodyKind B) (m : Msg I B) : Layout := (m.plan K BK).1

/-- A layout that puts the state init into a cell although there is none. -/
def Msg.Ghost (m : Msg I B) : Prop := ∃ l, m.layout = some l ∧ l.initToCell = true ∧ m.init = none

/-- Messages with this kind of headers and bodies are stored and loaded back. -/
structure MessageCodec (acc : Cell → Bool) (K : InfoKind I) (BK : BodyKind B) (okB : Bool → B → Prop) (encB : Bool → B → Enc Cell)
    (back : Bool → B → B → Prop) : Prop where
  /-- storing writes the encoding in the layout that is used; it fails exactly if there is no room (with `CellOverflow`) -/
  store : ∀ m : Msg I B, m.Ok acc K okB (m.used K BK) → ¬ m.Ghost → Writes (m.store acc K BK) (m.enc K encB (m.used K BK))
  /-- also in the case excluded above nothing else is written -/
  any : ∀ m : Msg I B, m.Ok acc K okB (m.used K BK) → ∀ b : CellB Cell, b.WF →
    (∃ b', m.store acc K BK b = (.ok (), b') ∧ b'.WF ∧ b'.contents = b.contents ++ m.enc K encB (m.used K BK)) ∨
    ∃ b', m.store acc K BK b = (.error .cellOverflow, b')
  /-- loading the stored message gives the header, the state init and the body, and how they were laid out; nothing is left -/
  round : ∀ m : Msg I B, m.Ok acc K okB (m.used K BK) → ∀ b, m.store acc K BK .new = (.ok (), b) →
    ∃ body' s, Msg.load K BK b.asSlice = (.ok ⟨m.info, m.init, body', some ⟨(m.used K BK).initToCell && m.init.isSome, (m.used K BK).bodyToCell⟩⟩, s) ∧
      back (m.used K BK).bodyToCell m.body body' ∧ s.contents = Enc.nil
  /-- whatever is loaded was there: an encoding of the header, one of the state init, the bit, the body -/
  exact : ∀ (s s' : CSlice Cell) (m : Msg I B), s.WF → Msg.load K BK s = (.ok m, s') →
    ∃ l e1 e2, m.layout = some l ∧ K.tlb.R m.info e1 ∧ (placed acc stateInit).opt.R (m.init.map fun x => (l.initToCell, x)) e2 ∧
      (m.init = none → l.initToCell = false) ∧
      s.contents = e1 ++ (e2 ++ (Enc.bits [l.bodyToCell] ++ (encB l.bodyToCell m.body ++ s'.contents))) ∧ (l.bodyToCell = false → s'.contents = Enc.nil)
  /-- loading arbitrary data never panics -/
  safe : Safe (Msg.load K BK : Rd Cell (Msg I B))

end

/-! ### Lemmas -/

section
variable {I B : Type} {acc : Cell → Bool} {K : InfoKind I} {BK : BodyKind B} {okB : Bool → B → Prop} {encB : Bool → B → Enc Cell}
  {back : Bool → B → B → Prop} {slack : I → Nat}

theorem initEnc_eq (l : Layout) (o : Option StateInit) : (placed acc stateInit).opt.enc (o.map fun s => (l.initToCell, s)) = initEnc l o := by
  cases o <;> rfl

theorem init_ok {m : Msg I B} {l : Layout} (h : m.Ok acc K okB l) : (placed acc stateInit).opt.ok (m.init.map fun s => (l.initToCell, s)) := by
  cases hi : m.init with
  | none => exact trivial
  | some s => exact h.init s hi

theorem storeParts_writes (hk : K.Sound slack) (hb : BK.Sound okB encB back) {m : Msg I B} {l : Layout} (h : m.Ok acc K okB l) :
    Writes (m.storeParts acc K BK l) (m.enc K encB l) := by
  have h1 := (placed_sound stateInit_sound acc).opt.st.writes _ (init_ok h)
  rw [initEnc_eq] at h1
  refine (hk.near _ h.info).seq (h1.seq ((Wr.writes_bit _).writes.seq (hb.writes _ _ h.body))) ?_
  rw [Enc.append_fst, Enc.append_fst, List.length_append, List.length_append]
  have : 1 ≤ (initEnc l m.init).1.length := by
    cases m.init with
    | none => exact Nat.le_refl 1
    | some s => show 1 ≤ ([true] ++ _ : List Bool).length; rw [List.length_append]; exact Nat.le_add_right _ _
  show 2 ≤ _ + ([l.bodyToCell].length + _)
  simp only [List.length_cons, List.length_nil]
  omega

def initBits (l : Layout) : Option StateInit → Nat
  | none => 1
  | some s => 2 + if l.initToCell then 0 else s.bitLen
def initRefs (l : Layout) : Option StateInit → Nat
  | none => 0
  | some s => if l.initToCell then 1 else s.refCount

theorem init_size {l : Layout} {o : Option StateInit} (h : ∀ s, o = some s → (placed acc stateInit).ok (l.initToCell, s)) :
    (initEnc l o).1.length = initBits l o ∧ (initEnc l o).2.length = initRefs l o := by
  cases o with
  | none => exact ⟨rfl, rfl⟩
  | some s =>
    have hs := h s rfl
    obtain ⟨i, b⟩ := l
    cases i with
    | true => exact ⟨rfl, rfl⟩
    | false =>
      have hk : stateInit.ok s := hs
      have := stateInit_size hk
      refine ⟨?_, ?_⟩
      · show ([true] ++ ([false] ++ (stateInit.enc s).1)).length = 2 + s.bitLen
        rw [List.length_append, List.length_append, this.1, ← Nat.add_assoc]
        rfl
      · exact this.2

/-- The size that `compute_full_size` gives. -/
theorem fullSize_eq (l : Layout) (info body : Nat × Nat) (o : Option StateInit) :
    (l.fullSize info o body).1 = info.1 + initBits l o + 1 + (if l.bodyToCell then 0 else body.1) ∧
    (l.fullSize info o body).2 = info.2 + (initRefs l o + if l.initToCell && o.isNone then 1 else 0) + (if l.bodyToCell then 1 else body.2) := by
  obtain ⟨i, b⟩ := l
  cases i <;> cases b <;> cases o <;> refine ⟨?_, ?_⟩ <;> simp [Layout.fullSize, Layout.detailed, initBits, initRefs] <;> omega

theorem enc_size (hk : K.Sound slack) (hb : BK.Sound okB encB back) {m : Msg I B} {l : Layout} (h : m.Ok acc K okB l) :
    (m.enc K encB l).1.length = (l.fullSize (K.size m.info) m.init (BK.size m.body)).1 + slack m.info ∧
    (m.enc K encB l).2.length + (if l.initToCell && m.init.isNone then 1 else 0) = (l.fullSize (K.size m.info) m.init (BK.size m.body)).2 := by
  have h1 := hk.bits _ h.info
  have h2 := hk.refs _ h.info
  have h3 := init_size h.init
  have h4 := hb.size _ _ h.body
  obtain ⟨f1, f2⟩ := fullSize_eq l (K.size m.info) (BK.size m.body) m.init
  have e1 : (m.enc K encB l).1.length = (K.tlb.enc m.info).1.length + ((initEnc l m.init).1.length + (1 + (encB l.bodyToCell m.body).1.length)) := by
    show (_ ++ (_ ++ ([_] ++ _))).length = _
    simp only [List.length_append, List.length_cons, List.length_nil]
  have e2 : (m.enc K encB l).2.length = (K.tlb.enc m.info).2.length + ((initEnc l m.init).2.length + (encB l.bodyToCell m.body).2.length) := by
    show (_ ++ (_ ++ ([] ++ _))).length = _
    simp only [List.length_append, List.length_nil, List.nil_append]
  have h5 := congrArg Prod.fst h4
  have h6 := congrArg Prod.snd h4
  dsimp only at h5 h6
  rw [e1, e2, f1, f2, h1, h2, h3.1, h3.2, h5, h6]
  cases l.bodyToCell <;> simp <;> omega

/-- The capacity check asks for no more than is needed: it does not change what the writer does. -/
theorem needs_less {w : Wr Cell Unit} {e : Enc Cell} (h : Writes w e) {n r : Nat} (hn : n ≤ e.1.length) (hr : r ≤ e.2.length) (hb : n ≤ 64512) :
    Writes (Wr.needs n r >>= fun _ => w) e := by
  intro b hw
  have hcap : b.hasCapacity n r = decide (b.contents.1.length + n ≤ 1023 ∧ b.contents.2.length + r ≤ 4) := Wr.hasCapacity_iff hw hb
  by_cases hc : b.contents.1.length + n ≤ 1023 ∧ b.contents.2.length + r ≤ 4
  · have e1 : Wr.needs n r b = (.ok (), b) := by unfold Wr.needs; rw [hcap, if_pos (decide_eq_true hc)]
    rw [Prog.bind_ok e1]
    exact h b hw
  · have e1 : Wr.needs n r b = (.error .cellOverflow, b) := by
      unfold Wr.needs; rw [hcap, if_neg (by rw [decide_eq_false hc]; decide)]
    have hnf : ¬ (b.contents ++ e : Enc Cell).Fits := by rw [fits_append]; omega
    exact ⟨fun hf => absurd hf hnf, fun _ => ⟨b, Prog.bind_err e1, hw⟩⟩

theorem needs_or {w : Wr Cell Unit} {e : Enc Cell} (h : Writes w e) (n r : Nat) (b : CellB Cell) (hw : b.WF) :
    (∃ b', (Wr.needs n r >>= fun _ => w) b = (.ok (), b') ∧ b'.WF ∧ b'.contents = b.contents ++ e) ∨
    ∃ b', (Wr.needs n r >>= fun _ => w) b = (.error .cellOverflow, b') := by
  by_cases hc : b.hasCapacity n r = true
  · have e1 : Wr.needs n r b = (.ok (), b) := by unfold Wr.needs; rw [if_pos hc]
    rw [Prog.bind_ok e1]
    by_cases hf : (b.contents ++ e : Enc Cell).Fits
    · obtain ⟨b', h1, h2, h3, _⟩ := (h b hw).1 hf
      exact Or.inl ⟨b', h1, h2, h3⟩
    · obtain ⟨b', h1, _⟩ := (h b hw).2 hf
      exact Or.inr ⟨b', h1⟩
  · have e1 : Wr.needs n r b = (.error .cellOverflow, b) := by unfold Wr.needs; rw [if_neg hc]
    exact Or.inr ⟨b, Prog.bind_err e1⟩

/-- What `compute` gives is the full size of the layout it chooses. -/
theorem compute_size (info body : Nat × Nat) (o : Option StateInit) :
    (Layout.compute info o body).2 = (Layout.compute info o body).1.fullSize info o body := by
  unfold Layout.compute Layout.fullSize
  dsimp only
  split
  · rfl
  · split
    · rfl
    · split
      · show ((Layout.detailed info o).1.1 + body.1, (Layout.detailed info o).1.2 + body.2 + 1) = ((Layout.detailed info o).1.1 + body.1, (Layout.detailed info o).1.2 + 1 + body.2)
        rw [Nat.add_right_comm]
      · rfl

theorem plan_size (m : Msg I B) : (m.plan K BK).2 = (m.used K BK).fullSize (K.size m.info) m.init (BK.size m.body) := by
  unfold Msg.used Msg.plan
  cases m.layout with
  | some l => rfl
  | none => exact compute_size _ _ _

theorem stateInit_small (s : StateInit) : s.bitLen ≤ 20 := by
  unfold StateInit.bitLen
  cases s.splitDepth <;> cases s.special <;> simp

theorem messageCodec (hk : K.Sound slack) (hb : BK.Sound okB encB back) : MessageCodec acc K BK okB encB back where
  store m h hg := by
    have hw := storeParts_writes hk hb h
    obtain ⟨s1, s2⟩ := enc_size hk hb h
    rw [← plan_size] at s1 s2
    have hsmall : (m.plan K BK).2.1 ≤ 64512 := by
      have f := (fullSize_eq (m.used K BK) (K.size m.info) (BK.size m.body) m.init).1
      rw [← plan_size] at f
      have := (hk.few _ h.info).1
      have := (hb.few _ _ h.body).1
      rw [f]
      cases hi : m.init with
      | none => simp only [initBits]; split <;> omega
      | some s => have := stateInit_small s; simp only [initBits]; split <;> split <;> omega
    by_cases hq : ((m.used K BK).initToCell && m.init.isNone) = true
    · -- a layout with a phantom state init: only chosen if the header does not fit at all
      have hl : m.layout = none := by
        cases hl : m.layout with
        | none => rfl
        | some l =>
          rw [Bool.and_eq_true] at hq
          have hu : m.used K BK = l := by unfold Msg.used Msg.plan; rw [hl]
          exact absurd ⟨l, hl, by rw [← hu]; exact hq.1, Option.isNone_iff_eq_none.1 hq.2⟩ hg
      rw [Bool.and_eq_true] at hq
      have hi := Option.isNone_iff_eq_none.1 hq.2
      have hp : m.plan K BK = Layout.compute (K.size m.info) none (BK.size m.body) := by unfold Msg.plan; rw [hl, hi]
      have hbig : 1024 ≤ (m.plan K BK).2.1 := by
        have hq1 : (m.plan K BK).1.initToCell = true := hq.1
        rw [hp] at hq1 ⊢
        have := (hk.few _ h.info).2
        have := (hb.few _ _ h.body).2
        unfold Layout.compute Layout.detailed at hq1 ⊢
        dsimp only at hq1 ⊢
        split at hq1
        · exact absurd hq1 Bool.false_ne_true
        · split at hq1
          · exact absurd hq1 Bool.false_ne_true
          · rw [if_neg (by assumption), if_neg (by assumption)]
            split <;> dsimp only <;> omega
      intro b hwf
      have hcap := Wr.hasCapacity_iff hwf (n := (m.plan K BK).2.1) (r := (m.plan K BK).2.2) hsmall
      have e1 : Wr.needs (m.plan K BK).2.1 (m.plan K BK).2.2 b = (.error .cellOverflow, b) := by
        unfold Wr.needs
        rw [hcap, if_neg]
        intro hc
        have := of_decide_eq_true hc
        omega
      have hnf : ¬ (b.contents ++ m.enc K encB (m.used K BK) : Enc Cell).Fits := by rw [fits_append]; omega
      exact ⟨fun hf => absurd hf hnf, fun _ => ⟨b, Prog.bind_err e1, hwf⟩⟩
    · rw [if_neg hq] at s2
      exact needs_less hw (by omega) (by omega) hsmall
  any m h b hwf := needs_or (storeParts_writes hk hb h) _ _ b hwf
  round m h b hs := by
    rcases needs_or (storeParts_writes hk hb h) (m.plan K BK).2.1 (m.plan K BK).2.2 .new CellB.wf_new with ⟨b', h1, h2, h3⟩ | ⟨b', h1⟩
    · have e : (.ok (), b) = ((.ok () : Except Err Unit), b') := hs.symm.trans h1
      obtain ⟨_, rfl⟩ := Prod.mk.inj e
      obtain ⟨w0, c0, c0'⟩ := CellB.asSlice_spec h2
      have c0 : b.asSlice.contents = b.contents := Prod.ext c0 c0'
      rw [h3, show (CellB.new : CellB Cell).contents = Enc.nil from rfl, Enc.nil_append] at c0
      obtain ⟨s1, r1, w1, c1, _⟩ := hk.ld.reads _ _ (hk.canon _ h.info) _ _ w0 c0
      have hi := (placed_sound stateInit_sound acc).opt.st.canon _ (init_ok h)
      rw [initEnc_eq] at hi
      obtain ⟨s2, r2, w2, c2, _⟩ := (placed_sound stateInit_sound acc).opt.ld.reads _ _ hi _ _ w1 c1
      obtain ⟨s3, r3, w3, c3, _⟩ := Rd.reads_bit (m.used K BK).bodyToCell _ _ w2 c2
      obtain ⟨b', s4, r4, k4, n4⟩ := hb.reads _ _ h.body s3 w3 c3
      refine ⟨b', s4, ?_, k4, n4⟩
      have r2' : (placed (fun _ => true) stateInit).opt.load s1 = (.ok (m.init.map fun s => ((m.used K BK).initToCell, s)), s2) := r2
      unfold Msg.load
      rw [Prog.bind_ok r1, Prog.bind_ok r2', Prog.bind_ok r3, Prog.bind_ok r4]
      cases hm : m.init with
      | none => rw [Option.isSome_none, Bool.and_false]; rfl
      | some s => rw [Option.isSome_some, Bool.and_true]; rfl
    · have e : (.ok (), b) = ((.error .cellOverflow : Except Err Unit), b') := hs.symm.trans h1
      cases (Prod.mk.inj e).1
  exact s s' m hs hl := by
    unfold Msg.load at hl
    obtain ⟨i, s1, r1, hl⟩ := Prog.bind_inv hl
    obtain ⟨o, s2, r2, hl⟩ := Prog.bind_inv hl
    obtain ⟨c, s3, r3, hl⟩ := Prog.bind_inv hl
    obtain ⟨b, s4, r4, hl⟩ := Prog.bind_inv hl
    obtain ⟨hl, rfl⟩ := Prod.mk.inj hl
    cases hl
    obtain ⟨e1, q1, c1, w1⟩ := hk.ld.exact _ _ _ hs r1
    obtain ⟨e2, q2, c2, w2⟩ := (placed_sound stateInit_sound acc).opt.ld.exact _ _ _ w1 r2
    obtain ⟨e3, rfl, c3, w3⟩ := Rd.exact_bit _ _ _ w2 r3
    obtain ⟨c4, n4⟩ := hb.exact _ _ _ _ w3 r4
    refine ⟨_, e1, e2, rfl, q1, ?_, ?_, by rw [c1, c2, c3, c4], n4⟩
    · cases o with
      | none => exact q2
      | some p => exact q2
    · cases o with
      | none => intro _; rfl
      | some p => intro h; cases h
  safe := by
    have hi : Safe (placed (fun _ => true) stateInit).opt.load := (placed_sound stateInit_sound (fun _ => true)).opt.ld.safe
    unfold Msg.load
    exact hk.ld.safe.bind fun i => hi.bind fun o => Loads.bit.safe.bind fun c => (hb.safe c).bind fun b => Safe.pure _

end

/-! ### Specification of the layout -/

/-- The layouts in order of preference: everything in the root; the body in a cell; the state init in a cell; both in cells. -/
def candidates : List Layout := [⟨false, false⟩, ⟨false, true⟩, ⟨true, false⟩, ⟨true, true⟩]

section
variable {I B : Type}

/-- The first layout with at most `n` bits and four references; the last one if there is none. -/
def firstWithin (size : Layout → Nat × Nat) (n : Nat) : Layout :=
  (candidates.find? fun l => decide ((size l).1 ≤ n ∧ (size l).2 ≤ 4)).getD ⟨true, true⟩

def Msg.sizeIn (K : InfoKind I) (encB : Bool → B → Enc Cell) (m : Msg I B) (l : Layout) : Nat × Nat :=
  ((m.enc K encB l).1.length, (m.enc K encB l).2.length)

end

/-- Internal messages. -/
def MsgInfo.isInternal : MsgInfo → Bool
  | .int _ => true
  | _ => false
def RelaxedMsgInfo.isInternal : RelaxedMsgInfo → Bool
  | .int _ => true
  | _ => false

section
variable {I B : Type} {acc : Cell → Bool} {K : InfoKind I} {BK : BodyKind B} {okB : Bool → B → Prop} {encB : Bool → B → Enc Cell}
  {back : Bool → B → B → Prop} {slack : I → Nat}

theorem compute_first (hk : K.Sound slack) (hb : BK.Sound okB encB back) {m : Msg I B} (h : ∀ l, m.Ok acc K okB l) :
    (Layout.compute (K.size m.info) m.init (BK.size m.body)).1 = firstWithin (m.sizeIn K encB) (1023 + slack m.info) := by
  have key : ∀ l, (m.sizeIn K encB l).1 = (K.size m.info).1 + initBits l m.init + 1 + (if l.bodyToCell then 0 else (BK.size m.body).1) + slack m.info ∧
      (m.sizeIn K encB l).2 = (K.size m.info).2 + initRefs l m.init + (if l.bodyToCell then 1 else (BK.size m.body).2) := by
    intro l
    obtain ⟨s1, s2⟩ := enc_size hk hb (h l)
    obtain ⟨f1, f2⟩ := fullSize_eq l (K.size m.info) (BK.size m.body) m.init
    rw [f1] at s1
    rw [f2] at s2
    refine ⟨s1, ?_⟩
    show (m.enc K encB l).2.length = _
    omega
  obtain ⟨a1, b1⟩ := key ⟨false, false⟩
  obtain ⟨a2, b2⟩ := key ⟨false, true⟩
  obtain ⟨a3, b3⟩ := key ⟨true, false⟩
  have hd : firstWithin (m.sizeIn K encB) (1023 + slack m.info) =
      if (m.sizeIn K encB ⟨false, false⟩).1 ≤ 1023 + slack m.info ∧ (m.sizeIn K encB ⟨false, false⟩).2 ≤ 4 then ⟨false, false⟩
      else if (m.sizeIn K encB ⟨false, true⟩).1 ≤ 1023 + slack m.info ∧ (m.sizeIn K encB ⟨false, true⟩).2 ≤ 4 then ⟨false, true⟩
      else if (m.sizeIn K encB ⟨true, false⟩).1 ≤ 1023 + slack m.info ∧ (m.sizeIn K encB ⟨true, false⟩).2 ≤ 4 then ⟨true, false⟩
      else ⟨true, true⟩ := by
    unfold firstWithin candidates
    simp only [List.find?_cons, List.find?_nil]
    by_cases p1 : (m.sizeIn K encB ⟨false, false⟩).1 ≤ 1023 + slack m.info ∧ (m.sizeIn K encB ⟨false, false⟩).2 ≤ 4
    · rw [decide_eq_true p1, if_pos p1]; rfl
    · rw [decide_eq_false p1, if_neg p1]
      by_cases p2 : (m.sizeIn K encB ⟨false, true⟩).1 ≤ 1023 + slack m.info ∧ (m.sizeIn K encB ⟨false, true⟩).2 ≤ 4
      · rw [decide_eq_true p2, if_pos p2]; rfl
      · rw [decide_eq_false p2, if_neg p2]
        by_cases p3 : (m.sizeIn K encB ⟨true, false⟩).1 ≤ 1023 + slack m.info ∧ (m.sizeIn K encB ⟨true, false⟩).2 ≤ 4
        · rw [decide_eq_true p3, if_pos p3]; rfl
        · rw [decide_eq_false p3, if_neg p3]
          by_cases p4 : (m.sizeIn K encB ⟨true, true⟩).1 ≤ 1023 + slack m.info ∧ (m.sizeIn K encB ⟨true, true⟩).2 ≤ 4
          · rw [decide_eq_true p4]; rfl
          · rw [decide_eq_false p4]; rfl
  rw [hd]
  clear hd
  unfold Layout.compute Layout.detailed
  cases hi : m.init with
  | none =>
    simp only [hi, initBits, initRefs, if_true, if_false, Bool.false_eq_true] at a1 b1 a2 b2 a3 b3
    dsimp only
    generalize K.size m.info = x at *
    generalize BK.size m.body = y at *
    by_cases q1 : x.1 + 2 + 0 + y.1 ≤ 1023 ∧ x.2 + 0 + y.2 ≤ 4
    · rw [if_pos q1, if_pos (by omega)]
    · rw [if_neg q1, if_neg (c := (m.sizeIn K encB ⟨false, false⟩).1 ≤ _ ∧ _) (by omega)]
      by_cases q2 : x.1 + 2 + 0 ≤ 1023 ∧ x.2 + 0 < 4
      · rw [if_pos q2, if_pos (by omega)]
      · rw [if_neg q2, if_neg (by omega), if_neg (by omega), if_neg (by omega)]
  | some st =>
    simp only [hi, initBits, initRefs, if_true, if_false, Bool.false_eq_true] at a1 b1 a2 b2 a3 b3
    dsimp only
    generalize K.size m.info = x at *
    generalize BK.size m.body = y at *
    by_cases q1 : x.1 + 2 + 1 + st.bitLen + y.1 ≤ 1023 ∧ x.2 + st.refCount + y.2 ≤ 4
    · rw [if_pos q1, if_pos (by omega)]
    · rw [if_neg q1, if_neg (c := (m.sizeIn K encB ⟨false, false⟩).1 ≤ _ ∧ _) (by omega)]
      by_cases q2 : x.1 + 2 + 1 + st.bitLen ≤ 1023 ∧ x.2 + st.refCount < 4
      · rw [if_pos q2, if_pos (by omega)]
      · rw [if_neg q2, if_neg (c := (m.sizeIn K encB ⟨false, true⟩).1 ≤ _ ∧ _) (by omega)]
        by_cases q3 : x.1 + 2 + 1 + y.1 ≤ 1023 ∧ x.2 + y.2 < 4
        · rw [if_pos q3, if_pos (by omega)]
        · rw [if_neg q3, if_neg (by omega)]

theorem firstWithin_fits {size : Layout → Nat × Nat} {n : Nat} (h : ∃ l, (size l).1 ≤ n ∧ (size l).2 ≤ 4) :
    (size (firstWithin size n)).1 ≤ n ∧ (size (firstWithin size n)).2 ≤ 4 := by
  obtain ⟨l, hl⟩ := h
  have hm : l ∈ candidates := by obtain ⟨a, b⟩ := l; cases a <;> cases b <;> decide
  unfold firstWithin
  cases hf : candidates.find? fun l => decide ((size l).1 ≤ n ∧ (size l).2 ≤ 4) with
  | none => exact absurd (decide_eq_true hl) (List.find?_eq_none.1 hf l hm)
  | some l' =>
    have := List.find?_some hf
    exact of_decide_eq_true this

end

/-! ### C58 -/

/-- **C58.** `Message`, `OwnedMessage`, `RelaxedMessage`, `OwnedRelaxedMessage`. Cells are built in a context that accepts the cells `acc`; `acc0` is the
context of `CellBuilder::build`. -/
theorem C58_messages (acc acc0 : Cell → Bool) :
    MessageCodec acc fullKind (sliceBody acc) (sliceOk acc) sliceEnc sliceBack ∧
    MessageCodec acc fullKind (partsBody acc acc0) (partsOk acc acc0) partsEnc partsBack ∧
    MessageCodec acc relaxedKind (sliceBody acc) (sliceOk acc) sliceEnc sliceBack ∧
    MessageCodec acc relaxedKind (partsBody acc acc0) (partsOk acc acc0) partsEnc partsBack :=
  ⟨messageCodec fullKind_sound (sliceBody_sound acc), messageCodec fullKind_sound (partsBody_sound acc acc0),
   messageCodec relaxedKind_sound (sliceBody_sound acc), messageCodec relaxedKind_sound (partsBody_sound acc acc0)⟩

/-- **C58, headers.** What is written for a header is an encoding that its loader reads; its loader accepts just the encodings of the grammar.
(A header alone may be refused with up to two bits to spare.) -/
theorem C58_headers : (∀ v, msgInfo.ok v → Near 2 (msgInfo.store v) (msgInfo.enc v) ∧ msgInfo.R v (msgInfo.enc v)) ∧ Loads msgInfo.load msgInfo.R ∧
    (∀ v, relaxedInfo.ok v → Writes (relaxedInfo.store v) (relaxedInfo.enc v) ∧ relaxedInfo.R v (relaxedInfo.enc v)) ∧ Loads relaxedInfo.load relaxedInfo.R := by
  refine ⟨fun v h => ⟨fullKind_sound.near v h, fullKind_sound.canon v h⟩, fullKind_sound.ld, fun v h => ⟨?_, relaxedKind_sound.canon v h⟩, relaxedKind_sound.ld⟩
  cases v with
  | int i => exact (Wr.writes_bit false).writes.seq ((intInfo_sound optIntAddr_sound).st.writes i h)
  | extOut i => exact (Wr.writes_small 3 (n := 2) (by decide)).writes.seq (extOutRelaxed_writes h)

/-! ### C59 -/

/-- How the layout of messages without a given layout is chosen. -/
structure LayoutChoice {I B : Type} (acc : Cell → Bool) (K : InfoKind I) (BK : BodyKind B) (okB : Bool → B → Prop) (encB : Bool → B → Enc Cell)
    (internal : I → Bool) : Prop where
  /-- external messages: the header has the declared size; the layout is the first one in which the message fits; the message is stored
  whenever it fits in some layout -/
  external : ∀ m : Msg I B, internal m.info = false → (∀ l, m.Ok acc K okB l) → m.layout = none →
    ((K.tlb.enc m.info).1.length, (K.tlb.enc m.info).2.length) = K.size m.info ∧
    m.used K BK = firstWithin (m.sizeIn K encB) 1023 ∧
    ((∃ l, (m.enc K encB l).Fits) → ∃ b, m.store acc K BK .new = (.ok (), b))
  /-- internal messages: the declared size is one bit short; the layout is the first one with at most 1024 bits; the message is stored
  whenever it fits in some layout, unless it has exactly 1024 bits in the chosen one -/
  internal : ∀ m : Msg I B, internal m.info = true → (∀ l, m.Ok acc K okB l) → m.layout = none →
    ((K.tlb.enc m.info).1.length, (K.tlb.enc m.info).2.length) = ((K.size m.info).1 + 1, (K.size m.info).2) ∧
    m.used K BK = firstWithin (m.sizeIn K encB) 1024 ∧
    ((∃ l, (m.enc K encB l).Fits) → (m.sizeIn K encB (m.used K BK)).1 ≠ 1024 → ∃ b, m.store acc K BK .new = (.ok (), b))

section
variable {I B : Type} {acc : Cell → Bool} {K : InfoKind I} {BK : BodyKind B} {okB : Bool → B → Prop} {encB : Bool → B → Enc Cell}
  {back : Bool → B → B → Prop} {slack : I → Nat}

theorem store_fits (hk : K.Sound slack) (hb : BK.Sound okB encB back) {m : Msg I B} (h : m.Ok acc K okB (m.used K BK)) (hl : m.layout = none)
    (hf : (m.enc K encB (m.used K BK)).Fits) : ∃ b, m.store acc K BK .new = (.ok (), b) := by
  obtain ⟨b, h1, _⟩ := ((messageCodec hk hb).store m h (by rintro ⟨l, h1, _⟩; rw [hl] at h1; cases h1) .new CellB.wf_new).1
    (by rw [show (CellB.new : CellB Cell).contents = Enc.nil from rfl, Enc.nil_append]; exact hf)
  exact ⟨b, h1⟩

theorem layoutChoice (hk : K.Sound slack) (hb : BK.Sound okB encB back) {internal : I → Bool} (h1 : ∀ i, internal i = true → slack i = 1)
    (h0 : ∀ i, internal i = false → slack i = 0) : LayoutChoice acc K BK okB encB internal where
  external m hi h hl := by
    have hu : m.used K BK = firstWithin (m.sizeIn K encB) 1023 := by
      have := compute_first hk hb h
      rw [h0 _ hi] at this
      unfold Msg.used Msg.plan
      rw [hl]
      exact this
    refine ⟨Prod.ext ?_ (hk.refs _ (h ⟨true, true⟩).info), hu, fun hf => ?_⟩
    · have := hk.bits _ (h ⟨true, true⟩).info
      rw [h0 _ hi] at this
      exact this
    · have := firstWithin_fits (size := m.sizeIn K encB) (n := 1023) hf
      rw [← hu] at this
      exact store_fits hk hb (h _) hl this
  internal m hi h hl := by
    have hu : m.used K BK = firstWithin (m.sizeIn K encB) 1024 := by
      have := compute_first hk hb h
      rw [h1 _ hi] at this
      unfold Msg.used Msg.plan
      rw [hl]
      exact this
    refine ⟨Prod.ext ?_ (hk.refs _ (h ⟨true, true⟩).info), hu, fun hf hn => ?_⟩
    · have := hk.bits _ (h ⟨true, true⟩).info
      rw [h1 _ hi] at this
      exact this
    · obtain ⟨l, g1, g2⟩ := hf
      have := firstWithin_fits (size := m.sizeIn K encB) (n := 1024) ⟨l, Nat.le_succ_of_le g1, g2⟩
      rw [← hu] at this
      exact store_fits hk hb (h _) hl ⟨Nat.lt_succ_iff.1 (Nat.lt_of_le_of_ne this.1 hn), this.2⟩

end

/-- **C59 (partial).** Full property: a message without a given layout is stored in the first layout in which it fits, and stored whenever it fits in some layout.
This holds for external messages. For internal ones the declared size is one bit short, and the property fails if the chosen layout takes
exactly 1024 bits (`C59_internal_refused`). -/
theorem C59_layout_partial (acc acc0 : Cell → Bool) :
    LayoutChoice acc fullKind (sliceBody acc) (sliceOk acc) sliceEnc MsgInfo.isInternal ∧
    LayoutChoice acc fullKind (partsBody acc acc0) (partsOk acc acc0) partsEnc MsgInfo.isInternal ∧
    LayoutChoice acc relaxedKind (sliceBody acc) (sliceOk acc) sliceEnc RelaxedMsgInfo.isInternal ∧
    LayoutChoice acc relaxedKind (partsBody acc acc0) (partsOk acc acc0) partsEnc RelaxedMsgInfo.isInternal := by
  have f1 : ∀ i : MsgInfo, i.isInternal = true → i.slack = 1 := by intro i h; cases i <;> first | rfl | cases h
  have f0 : ∀ i : MsgInfo, i.isInternal = false → i.slack = 0 := by intro i h; cases i <;> first | rfl | cases h
  have r1 : ∀ i : RelaxedMsgInfo, i.isInternal = true → i.slack = 1 := by intro i h; cases i <;> first | rfl | cases h
  have r0 : ∀ i : RelaxedMsgInfo, i.isInternal = false → i.slack = 0 := by intro i h; cases i <;> first | rfl | cases h
  exact ⟨layoutChoice fullKind_sound (sliceBody_sound acc) f1 f0, layoutChoice fullKind_sound (partsBody_sound acc acc0) f1 f0,
    layoutChoice relaxedKind_sound (sliceBody_sound acc) r1 r0, layoutChoice relaxedKind_sound (partsBody_sound acc acc0) r1 r0⟩

/-! ### Examples and counterexamples -/

def exIntInfo : IntInfo IntAddr :=
  ⟨⟨true, false, false⟩, .std ⟨none, 0, List.replicate 32 0x11⟩, .std ⟨none, -1, List.replicate 32 0x33⟩, ⟨0, none⟩, 0, 0, 5, 7⟩
def zeroBody (n : Nat) : CSlice Cell := ⟨List.replicate ((n + 7) / 8) 0, [], ⟨0, n, 0, 0⟩⟩
/-- An internal message with 1024 bits if everything is put into the root. -/
def exFull : Msg MsgInfo (CSlice Cell) := ⟨.int exIntInfo, none, zeroBody 375, none⟩

/-- **C59, counterexample.** The message is refused with `CellOverflow`; with the body in a cell of its own it is stored. -/
theorem C59_internal_refused :
    (exFull.store (fun _ => true) fullKind (sliceBody fun _ => true) .new).1 = .error .cellOverflow ∧
    ({ exFull with layout := some ⟨false, true⟩ }.store (fun _ => true) fullKind (sliceBody fun _ => true) .new).1 = .ok () := by
  decide +kernel

/-- A given layout that puts a missing state init into a cell asks for a reference that is not stored: a message that fits is refused. -/
def exGhost : Msg MsgInfo (CSlice Cell) :=
  ⟨.extIn ⟨none, .std ⟨none, 0, List.replicate 32 0x11⟩, 0⟩, none,
    ⟨[0xff], List.replicate 4 (.mk false [] []), ⟨0, 8, 0, 4⟩⟩, some ⟨true, false⟩⟩

/-- **C58, counterexample for layouts with a state init that is not there.** -/
theorem C58_ghost_refused :
    exGhost.Ghost ∧ (exGhost.enc fullKind sliceEnc ⟨true, false⟩).Fits ∧
    (exGhost.store (fun _ => true) fullKind (sliceBody fun _ => true) .new).1 = .error .cellOverflow ∧
    ({ exGhost with layout := none }.store (fun _ => true) fullKind (sliceBody fun _ => true) .new).1 = .ok () := by
  refine ⟨⟨_, rfl, rfl, rfl⟩, ?_, ?_, ?_⟩ <;> decide +kernel

/-- A header of an external message that exactly fills the cell is refused, as the capacity check counts its tag twice. -/
theorem C58_header_refused : ∃ (v : MsgInfo) (b : CellB Cell), msgInfo.ok v ∧ b.WF ∧ (b.contents ++ msgInfo.enc v : Enc Cell).Fits ∧
    (msgInfo.store v b).1 = .error .cellOverflow := by
  refine ⟨.extIn ⟨none, .std ⟨none, 0, List.replicate 32 0x11⟩, 0⟩, (Wr.zeros 748 (.new : CellB Cell)).2, ⟨trivial, ⟨trivial, ?_, ?_⟩, ?_⟩, ?_, ?_, ?_⟩
  · show _ ∧ _; decide
  · decide
  · tlb_ok
  · obtain ⟨b', h1, h2, _⟩ := (Wr.writes_zeros (ρ := Cell) 748 (by decide)).writes .new CellB.wf_new |>.1 (by decide +kernel)
    rw [h1]; exact h2
  · decide +kernel
  · decide +kernel

/-- An owned message whose body is a whole exotic cell: refused if no layout is given, stored with the body in a cell. -/
theorem C59_exotic_body_refused : ∃ m : Msg MsgInfo (SliceRange × Cell), m.layout = none ∧
    (m.store (fun _ => true) fullKind (partsBody (fun _ => true) fun _ => true) .new).1 = .error .unexpectedExoticCell ∧
    ({ m with layout := some ⟨false, true⟩ }.store (fun _ => true) fullKind (partsBody (fun _ => true) fun _ => true) .new).1 = .ok () := by
  refine ⟨⟨.extIn ⟨none, .std ⟨none, 0, List.replicate 32 0x11⟩, 0⟩, none, (fullRange (.mk true (natBits 8 2) []), .mk true (natBits 8 2) []), none⟩, rfl, ?_⟩
  decide +kernel

/-- The hypotheses are met: an external message with a state init and a body. -/
def exMsg : Msg MsgInfo (CSlice Cell) :=
  ⟨.extIn ⟨some ⟨8, [0x5a]⟩, .std ⟨none, 0, List.replicate 32 0x11⟩, 1000⟩, some ⟨some 3, none, some (.mk false [true] []), none, none⟩, zeroBody 900, none⟩

theorem exMsg_ok (l : Layout) : exMsg.Ok (fun _ => true) fullKind (sliceOk fun _ => true) l := by
  have hst : stateInit.ok ⟨some 3, none, some (.mk false [true] []), none, none⟩ := ⟨by tlb_ok, trivial, trivial, trivial, trivial⟩
  refine ⟨⟨⟨by decide, ⟨natBits 8 0x5a, rfl, by decide, by decide⟩⟩, ⟨trivial, by tlb_ok, by decide⟩, by tlb_ok⟩, ?_, ⟨⟨?_, ?_, ?_, ?_, ?_, ?_⟩, ?_, fun _ => rfl⟩⟩
  · intro s hs
    cases hs
    obtain ⟨i, b⟩ := l
    cases i with
    | false => exact hst
    | true => exact ⟨hst, (by decide +kernel : (stateInit.enc ⟨some 3, none, some (.mk false [true] []), none, none⟩).Fits), rfl⟩
  all_goals decide +kernel

example : exMsg.used fullKind (sliceBody fun _ => true) = ⟨false, true⟩ := by decide +kernel
example : ∃ b, exMsg.store (fun _ => true) fullKind (sliceBody fun _ => true) .new = (.ok (), b) :=
  ((C59_layout_partial (fun _ => true) (fun _ => true)).1.external exMsg rfl exMsg_ok rfl).2.2 ⟨⟨false, true⟩, by decide +kernel⟩

end Verif
