import Verif.FormsDict
import Verif.MessageProps
/-
Values in cells, currencies, messages and validators as data of `serde`: lemmas for C93.
-/
set_option linter.unusedVariables false
namespace Verif
namespace Form

/-! ### Values in cells -/

section
variable {α β : Type}

theorem back_repr (H : Hasher) {T : Tlb α} (hT : T.Sound) (r : Bool) :
    Back (repr H T) r (fun v => T.ok v ∧ (T.enc v).Fits ∧ Carried H (Tlb.cellOf (T.enc v))) := by
  rintro v ⟨h1, h2, h3, h4, h5⟩
  obtain ⟨b, hb⟩ := (Boc.C91_encodable H hT h1).2 ⟨h2, h3⟩
  rcases Boc.C91_repr H hT h1 h4 with h | h
  · exact absurd h h5
  · refine ⟨.bytes b, ?_, ?_⟩
    · show (Boc.reprEncode H T v).toOption.map _ = _; rw [hb]; rfl
    · show (Boc.reprDecode H T b).toOption = _; rw [h.1 b hb]; rfl

theorem lazyNew_ok {H : Hasher} {T : Tlb α} (hT : T.Sound) {v : α} (hv : T.ok v) (hf : (T.enc v).Fits) (hw : (Tlb.cellOf (T.enc v)).WF H) :
    Tlb.lazyNew (Boc.emptyContext H) T v = .ok (Tlb.cellOf (T.enc v)) := by
  unfold Tlb.lazyNew
  rw [hT.stored hv, if_pos hf]
  show buildSl _ _ = _
  unfold buildSl
  exact if_pos ((Boc.C91_context H _).2 hw)

theorem lazyLoad_ok {T : Tlb α} (hT : T.Sound) {v : α} (hv : T.ok v) (hf : (T.enc v).Fits) : Tlb.lazyLoad T (Tlb.cellOf (T.enc v)) = .ok v := by
  have : Tlb.lazyNew (fun _ => true) T v = .ok (Tlb.cellOf (T.enc v)) := by
    unfold Tlb.lazyNew
    rw [hT.stored hv, if_pos hf]
    rfl
  exact (hT.lazy_round hv this).2

/-- A readable form of a cell with a value shows the value: the cell with the canonical encoding of the value comes back. -/
theorem lazy_shown (H : Hasher) {T : Tlb α} (hT : T.Sound) {F : Form α} {ok : α → Prop} (bF : Back F true ok) {v : α} (hv : T.ok v) (ho : ok v)
    (hf : (T.enc v).Fits) (hw : (Tlb.cellOf (T.enc v)).WF H) {c : Cell} (hc : Tlb.lazyLoad T c = .ok v) :
    ∃ x, (lazy H T F).ser true c = some x ∧ F.ser true v = some x ∧ (lazy H T F).de true x = some (Tlb.cellOf (T.enc v)) := by
  obtain ⟨x, h1, h2⟩ := bF v ho
  refine ⟨x, ?_, h1, ?_⟩
  · show (match Tlb.lazyLoad T c with | .ok v => F.ser true v | .error _ => none) = _
    rw [hc]; exact h1
  · show (match F.de true x with | some v => (Tlb.lazyNew (Boc.emptyContext H) T v).toOption | none => none) = _
    rw [h2]
    show (Tlb.lazyNew (Boc.emptyContext H) T v).toOption = _
    rw [lazyNew_ok hT hv hf hw]; rfl

theorem back_lazy_text (H : Hasher) {T : Tlb α} (hT : T.Sound) {F : Form α} {ok : α → Prop} (bF : Back F true ok) :
    Back (lazy H T F) true (fun c => c.WF H ∧ ∃ v, T.ok v ∧ ok v ∧ (T.enc v).Fits ∧ c = Tlb.cellOf (T.enc v)) := by
  rintro c ⟨hw, v, hv, ho, hf, rfl⟩
  obtain ⟨x, h1, _, h3⟩ := lazy_shown H hT bF hv ho hf hw (lazyLoad_ok hT hv hf)
  exact ⟨x, h1, h3⟩

theorem back_lazy_bytes (H : Hasher) (T : Tlb α) (F : Form α) : Back (lazy H T F) false (fun c => Carried H c ∧ c.exotic = false) := by
  rintro c ⟨h1, h2⟩
  obtain ⟨x, g1, g2⟩ := back_cell H false c h1
  refine ⟨x, g1, ?_⟩
  show (match (cell H).de false x with | some c => if c.exotic then none else some c | none => none) = _
  rw [g2]
  show (if c.exotic then none else some c) = _
  rw [h2]; rfl

/-! ### Parameters of the network -/

/-- What may be read back for a parameter. -/
def okParam (H : Hasher) (P : Nat → Option (Form Cell)) (okP : Nat → Cell → Prop) (id : Nat) (c : Cell) : Prop :=
  match P id with
  | some _ => okP id c
  | none => Carried H c

theorem back_config (H : Hasher) (P : Nat → Option (Form Cell)) (okP : Nat → Cell → Prop) (bP : ∀ id F, P id = some F → Back F true (okP id)) :
    Back (config H P) true (fun d => ∃ tm, IsDictC Config.params okId (natBits 32) (fun _ => True) Enc.ref (Boc.emptyContext H) d tm ∧
      ∀ id c, okId id → tm id = some c → okParam H P okP id c ∧ Shallow H 65503 c) := by
  rintro d ⟨tm, hd, hw⟩
  have hk : KeyCodes Config.params.key okId (natBits 32) := coins_key
  have hb : Config.params.key.bits ≤ 1023 := coins_bits
  obtain ⟨l, h1, h2, h3⟩ := entries_ok hk hb Config.ref_codes (fun c _ => Config.ref_fits c) hd
  have he : ∀ e ∈ l, okId e.1 ∧ okParam H P okP e.1 e.2 := by
    rintro ⟨x, c⟩ he
    exact ⟨(h3 _ he).1, (hw x c ((h1.2 x c).1 he).1 ((h1.2 x c).1 he).2).1⟩
  obtain ⟨m, g1, g2⟩ := write_read (K := nat (2 ^ 32 - 1)) (V := fun id => (P id).getD (cell H)) (r := true) (okK := okId) (okE := okParam H P okP)
    ((back_nat true _).mono fun v (h : v < 2 ^ 32) => by omega)
    (fun id _ => by
      unfold okParam
      cases hp : P id with
      | none => exact back_cell H true
      | some F => exact bP id F hp) he
  refine ⟨.map m, ?_, ?_⟩
  · show (writeMap _ _ true (Config.params.entries d)).map _ = _
    rw [h2, g1]; rfl
  show (match readMap (nat (2 ^ 32 - 1)) (fun id => (P id).getD (cell H)) true m with
    | some es => setAll Config.params (Boc.emptyContext H) none es
    | none => none) = some d
  rw [g2]
  show setAll Config.params (Boc.emptyContext H) none l = some d
  have hq : ∀ e ∈ l, okId e.1 ∧ True ∧ RefsVal H 0 65503 (slOf (Enc.ref e.2)) := by
    rintro ⟨x, c⟩ he
    refine ⟨(h3 _ he).1, trivial, Nat.le_refl _, by show 1 ≤ 4; decide, ?_⟩
    intro r hr
    have : r = c := by
      have hr : r ∈ [c] := hr
      simpa using hr
    subst this
    exact (hw x r ((h1.2 x r).1 he).1 ((h1.2 x r).1 he).2).2
  obtain ⟨d', hd'⟩ := setAll_ok hk hb Config.ref_codes (fun c _ => Config.ref_fits c) (Q := RefsVal H 0 65503)
    (fitsAll_refs (by decide) (by decide)) (C57_empty _) (fun y v _ h => by cases h) hq
  rw [hd']
  have := setAll_inv hk hb Config.ref_codes (fun c _ => Config.ref_fits c) _ (C57_empty _) (fun e he => ⟨(hq e he).1, trivial⟩) hd'
  have := isDictC_congr this (tm' := tm) fun x hx => (listing_puts h1 hx).symm
  exact congrArg some (C57_canonical this hd fun _ _ => rfl)

/-! ### Names of fields -/

theorem names_field (n : List Char) (F : Form α) : (field n F).names = [n] := rfl
theorem names_fieldOr (n : List Char) (F : Form α) (v : α) : (fieldOr n F v).names = [n] := rfl
theorem names_fieldSkip (n : List Char) (F : Form α) : (fieldSkip n F).names = [n] := rfl
theorem names_and (A : Fields α) (B : Fields β) : (A.and B).names = A.names ++ B.names := rfl
theorem names_as (A : Fields α) (f : α → β) (g : β → α) : (A.as f g).names = A.names := rfl

/-- The names of the fields are different. -/
macro "names" : tactic => `(tactic| (simp only [intInfo, extInInfo, extOutInfo, names_field, names_fieldOr, names_fieldSkip, names_and, names_as]; decide))

/-! ### Currencies -/

/-- Amounts whose text is read back (see C54). -/
def textAmount (v : V248) : Prop := v.val < 2 ^ 128 + 4 ∨ 10 ^ 64 ≤ v.val

theorem back_v248_some : Back v248 true (fun v => okAmount v ∧ textAmount v) := by
  rintro v ⟨⟨h1, h2⟩, h3⟩
  obtain ⟨x, g1, g2⟩ := back_v248_text h1 h2
  exact ⟨x, g1, g2.2 h3⟩

/-- Dictionaries of amounts in canonical form. -/
def OtherOf (H : Hasher) (d : Option Cell) : Prop := DictOf H coins okId (natBits 32) okAmount amountEnc (fun v => okAmount v ∧ textAmount v) d

theorem back_other (H : Hasher) {sh : Shuffle} (hsh : Fair sh) : Back (dict H sh coins (nat (2 ^ 32 - 1)) v248) true (OtherOf H) :=
  back_dict hsh coins_key coins_bits amount_codes (fun v hv => amountEnc_fits hv) (Q := RefsVal H 253 65503)
    (fitsAll_refs coins_room (by decide))
    (fun v hv _ => ⟨(amountEnc_small hv).1, by show (amountEnc v).2.length ≤ 4; rw [(amountEnc_small hv).2]; exact Nat.zero_le _,
      fun r hr => by have hr : r ∈ (amountEnc v).2 := hr; rw [(amountEnc_small hv).2] at hr; cases hr⟩)
    ((back_nat true _).mono fun v (h : v < 2 ^ 32) => by omega) back_v248_some

def okCurrency (H : Hasher) (c : Currency) : Prop := c.tokens ≤ VarKind.tokens.max ∧ OtherOf H c.other

theorem back_currency (H : Hasher) {sh : Shuffle} (hsh : Fair sh) : Back (currency H sh) true (okCurrency H) :=
  back_struct (good_as (good_and (good_field _ (back_varint true .tokens)) (good_field _ (back_other H hsh)) (by names)) fun c h => ⟨h, rfl⟩)

/-! ### State init -/

theorem simpleLib_codes : Codes simpleLib.ok libsType.store libsType.load simpleLib.R simpleLib.enc where
  writes := simpleLib_sound.st.writes
  canon := simpleLib_sound.st.canon
  valid := fun v e h => ⟨trivial, trivial⟩
  reads := simpleLib_sound.ld.reads
  exact := simpleLib_sound.ld.exact
  safe := simpleLib_sound.ld.safe

theorem simpleLib_fits (v : SimpleLib) : (simpleLib.enc v).Fits := by
  obtain ⟨p, c⟩ := v
  exact ⟨by show (1 : Nat) ≤ 1023; decide, by show (1 : Nat) ≤ 4; decide⟩

/-- Libraries with cells that can be carried and are not too deep for the dictionary. -/
def okLib (H : Hasher) (v : SimpleLib) : Prop := Carried H v.root ∧ Shallow H 65279 v.root

theorem back_lib (H : Hasher) : Back (lib H) true (okLib H) :=
  back_struct (good_as (good_and (good_field _ (back_bool true)) (good_field _ (back_cell H true)) (by names)) fun c h => ⟨⟨trivial, h.1⟩, rfl⟩)

/-- Dictionaries of libraries in canonical form. -/
def LibsOf (H : Hasher) (d : Option Cell) : Prop := DictOf H libsType (fun h => h.length = 32) bytesToBits simpleLib.ok simpleLib.enc (okLib H) d

theorem back_libs (H : Hasher) {sh : Shuffle} (hsh : Fair sh) : Back (dict H sh libsType hash (lib H)) true (LibsOf H) :=
  back_dict hsh Key.hash_codes (by decide) simpleLib_codes (fun v _ => simpleLib_fits v) (Q := RefsVal H 1 65279)
    (fitsAll_refs (by decide) (by decide))
    (fun v _ hv => ⟨Nat.le_refl _, by show (1 : Nat) ≤ 4; decide, fun r hr => by
      have hr : r ∈ [v.root] := hr
      rw [List.mem_singleton.1 hr]; exact hv.2⟩)
    (back_hash true) (back_lib H)

def okInit (H : Hasher) (i : StateInit) : Prop :=
  (∀ d, i.splitDepth = some d → 0 < d ∧ d ≤ 255) ∧ (∀ c, i.code = some c → Carried H c) ∧ (∀ c, i.data = some c → Carried H c) ∧ LibsOf H i.libraries

theorem back_specialFlags (r : Bool) : Back specialFlags r (fun _ => True) :=
  back_struct (good_as (good_and (good_field _ (back_bool r)) (good_field _ (back_bool r)) (by names)) fun c h => ⟨⟨trivial, trivial⟩, rfl⟩)

theorem back_stateInit (H : Hasher) {sh : Shuffle} (hsh : Fair sh) : Back (stateInit H sh) true (okInit H) :=
  back_struct (good_as
    (good_and (good_fieldOr _ none (back_opt (back_splitDepth true) (solid_splitDepth true)))
    (good_and (good_fieldOr _ none (back_opt (back_specialFlags true) (solid_struct _ true)))
    (good_and (good_field _ (back_opt (back_cell H true) (solid_cell H true)))
    (good_and (good_field _ (back_opt (back_cell H true) (solid_cell H true)))
    (good_field _ (back_libs H hsh)) (by names)) (by names)) (by names)) (by names))
    fun i h => ⟨⟨h.1, fun _ _ => trivial, h.2.1, h.2.2.1, h.2.2.2⟩, rfl⟩)

/-! ### Messages -/

theorem back_intAddr (r : Bool) : Back intAddr r (fun a => ∃ s : StdAddr, a = .std s ∧ s.Ok ∧ s.anycast = none) := by
  rintro a ⟨s, rfl, h⟩
  obtain ⟨x, h1, h2⟩ := back_stdAddr r s h
  refine ⟨x, h1, ?_⟩
  show (stdAddr.de r x).map _ = _
  rw [h2]; rfl

def okAddr (a : IntAddr) : Prop := ∃ s : StdAddr, a = .std s ∧ s.Ok ∧ s.anycast = none
def okExt (a : ExtAddr) : Prop := a.len ≤ 511 ∧ HoldsBits a.data a.len

def okInfo (H : Hasher) : MsgInfo → Prop
  | .int i => okAddr i.src ∧ okAddr i.dst ∧ okCurrency H i.value ∧ i.ihrFee ≤ VarKind.tokens.max ∧ i.fwdFee ≤ VarKind.tokens.max ∧
      i.createdLt < 2 ^ 64 ∧ i.createdAt < 2 ^ 32
  | .extIn i => (∀ a, i.src = some a → okExt a) ∧ okAddr i.dst ∧ i.importFee ≤ VarKind.tokens.max
  | .extOut i => okAddr i.src ∧ (∀ a, i.dst = some a → okExt a) ∧ i.createdLt < 2 ^ 64 ∧ i.createdAt < 2 ^ 32

theorem good_intInfo (H : Hasher) {sh : Shuffle} (hsh : Fair sh) : Good (intInfo H sh) true (fun i => okInfo H (.int i)) :=
  good_as
    (good_and (good_field _ (back_bool true)) (good_and (good_field _ (back_bool true)) (good_and (good_field _ (back_bool true))
    (good_and (good_field _ (back_intAddr true)) (good_and (good_field _ (back_intAddr true)) (good_and (good_field _ (back_currency H hsh))
    (good_and (good_field _ (back_varint true .tokens)) (good_and (good_field _ (back_varint true .tokens))
    (good_and (good_field _ (back_nat true _)) (good_field _ (back_nat true _))
    (by names)) (by names)) (by names)) (by names)) (by names)) (by names)) (by names)) (by names)) (by names))
    fun i h => ⟨⟨trivial, trivial, trivial, h.1, h.2.1, h.2.2.1, h.2.2.2.1, h.2.2.2.2.1,
      by have := h.2.2.2.2.2.1; show i.createdLt ≤ _; omega, by have := h.2.2.2.2.2.2; show i.createdAt ≤ _; omega⟩, rfl⟩

theorem good_extInInfo (H : Hasher) : Good extInInfo true (fun i => okInfo H (.extIn i)) :=
  good_as
    (good_and (good_fieldSkip _ back_extAddr.1 solid_extAddr) (good_and (good_field _ (back_intAddr true)) (good_field _ (back_varint true .tokens))
    (by names)) (by names))
    fun i h => ⟨⟨h.1, h.2.1, h.2.2⟩, rfl⟩

theorem good_extOutInfo (H : Hasher) : Good extOutInfo true (fun i => okInfo H (.extOut i)) :=
  good_as
    (good_and (good_field _ (back_intAddr true)) (good_and (good_fieldSkip _ back_extAddr.1 solid_extAddr)
    (good_and (good_field _ (back_nat true _)) (good_field _ (back_nat true _)) (by names)) (by names)) (by names))
    fun i h => ⟨⟨h.1, h.2.1, by have := h.2.2.1; show i.createdLt ≤ _; omega, by have := h.2.2.2; show i.createdAt ≤ _; omega⟩, rfl⟩

theorem tagged_back {A : Fields α} {ok : α → Prop} (hA : Good A true ok) (hn : "ty".toList ∉ A.names) (ty : String) {v : α} (hv : ok v) :
    ∃ l, tagged ty (A.ser true v) = some (mapOf l) ∧ pick "ty".toList l = some (some (.str ty.toList)) ∧ A.de true l = some v := by
  obtain ⟨l, h1, h2, h3⟩ := hA.back v hv
  refine ⟨("ty".toList, .str ty.toList) :: l, by rw [h1]; rfl, ?_, ?_⟩
  · have := pick_append (n := "ty".toList) (l := [("ty".toList, SV.str ty.toList)]) (l' := l) fun g => hn (h2.subset g)
    exact this.trans (pick_single _ _)
  · rw [← h3]
    refine hA.loc _ _ fun n g => ?_
    have := pick_perm (n := n) (List.perm_append_comm (l₁ := [("ty".toList, SV.str ty.toList)]) (l₂ := l))
    rw [show ("ty".toList, SV.str ty.toList) :: l = [("ty".toList, SV.str ty.toList)] ++ l from rfl, this]
    refine pick_append fun e => ?_
    have e : n ∈ ["ty".toList] := e
    exact hn (List.mem_singleton.1 e ▸ g)

theorem msgInfo_de {H : Hasher} {sh : Shuffle} {r : Bool} {l : Entries} {t : List Char} (h : pick "ty".toList l = some (some (.str t))) :
    (msgInfo H sh).de r (mapOf l) = if t = "Int".toList then ((intInfo H sh).de true l).map .int
          else if t = "ExtIn".toList then (extInInfo.de true l).map .extIn
          else if t = "ExtOut".toList then (extOutInfo.de true l).map .extOut
          else none := by
  show (match namesOf (l.map fun e => (SV.str e.1, e.2)) with
      | some l => match pick "ty".toList l with
        | some (some (.str t)) =>
          if t = "Int".toList then ((intInfo H sh).de true l).map MsgInfo.int
          else if t = "ExtIn".toList then (extInInfo.de true l).map .extIn
          else if t = "ExtOut".toList then (extOutInfo.de true l).map .extOut
          else none
        | _ => none
      | none => none) = _
  rw [namesOf_map]
  show (match pick "ty".toList l with
        | some (some (.str t)) =>
          if t = "Int".toList then ((intInfo H sh).de true l).map MsgInfo.int
          else if t = "ExtIn".toList then (extInInfo.de true l).map .extIn
          else if t = "ExtOut".toList then (extOutInfo.de true l).map .extOut
          else none
        | _ => none) = _
  rw [h]

theorem back_msgInfo (H : Hasher) {sh : Shuffle} (hsh : Fair sh) : Back (msgInfo H sh) true (okInfo H) := by
  intro v hv
  cases v with
  | int i =>
    obtain ⟨l, h1, h2, h3⟩ := tagged_back (good_intInfo H hsh) (by names) "Int" hv
    exact ⟨_, h1, by rw [msgInfo_de h2, h3]; rfl⟩
  | extIn i =>
    obtain ⟨l, h1, h2, h3⟩ := tagged_back (good_extInInfo H) (by names) "ExtIn" hv
    exact ⟨_, h1, by rw [msgInfo_de h2, h3, if_neg (by decide)]; rfl⟩
  | extOut i =>
    obtain ⟨l, h1, h2, h3⟩ := tagged_back (good_extOutInfo H) (by names) "ExtOut" hv
    exact ⟨_, h1, by rw [msgInfo_de h2, h3, if_neg (by decide), if_neg (by decide)]; rfl⟩

theorem back_layout (r : Bool) : Back layout r (fun _ => True) :=
  back_struct (good_as (good_and (good_field _ (back_bool r)) (good_field _ (back_bool r)) (by names)) fun c h => ⟨⟨trivial, trivial⟩, rfl⟩)

theorem back_messageFields {I : Type} (H : Hasher) {sh : Shuffle} (hsh : Fair sh) {info : Form I} {ok : I → Prop} (bI : Back info true ok) :
    Good (messageFields H sh info) true (fun p => ok p.1 ∧ (∀ i, p.2.1 = some i → okInit H i) ∧ Carried H p.2.2.1 ∧ ∀ l, p.2.2.2 = some l → True) :=
  good_and (good_field _ bI) (good_and (good_fieldOr _ none (back_opt (back_stateInit H hsh) (solid_struct _ true)))
    (good_and (good_fieldOr _ _ (back_cell H true)) (good_fieldOr _ none (back_opt (back_layout true) (solid_struct _ true))) (by names)) (by names)) (by names)

theorem bodyCell_ok {B : Type} {H : Hasher} {BK : BodyKind B} {b : B} {e : Enc Cell} (hw : Writes (BK.store false b) e) (hf : e.Fits)
    (ha : (Tlb.cellOf e).WF H) : bodyCell H BK b = some (Tlb.cellOf e) := by
  unfold bodyCell
  rw [Wr.toSl_ok hw hf]
  show (buildSl _ _).toOption = _
  unfold buildSl
  have : Boc.emptyContext H (.mk false e.1 e.2) = true := (Boc.C91_context H _).2 ha
  rw [if_pos this]; rfl

/-! ### The message of a transaction -/

theorem body_wf {acc : Cell → Bool} {c : Bool} {s s' b : CSlice Cell} (w : s.WF) (h : (sliceBody acc).load c s = (.ok b, s')) : b.WF := by
  cases c with
  | false =>
    obtain ⟨h1, _⟩ := Prod.mk.inj h
    cases h1
    exact w
  | true =>
    obtain ⟨e, ⟨c, _, _, hf, rfl⟩, _, _⟩ := Tlb.exact_childSlice s s' b w h
    exact (Tlb.reader_contents hf).1

theorem msg_load {I B : Type} {acc : Cell → Bool} {K : InfoKind I} {BK : BodyKind B} {okB : Bool → B → Prop} {encB : Bool → B → Enc Cell}
    {back : Bool → B → B → Prop} {slack : I → Nat} (hk : K.Sound slack) (hb : BK.Sound okB encB back) {m : Msg I B} {l : Layout} (h : m.Ok acc K okB l)
    {s : CSlice Cell} (w0 : s.WF) (c0 : s.contents = m.enc K encB l) :
    ∃ body' s', Msg.load K BK s = (.ok ⟨m.info, m.init, body', some ⟨l.initToCell && m.init.isSome, l.bodyToCell⟩⟩, s') ∧ back l.bodyToCell m.body body' ∧
      ∃ s3, s3.WF ∧ BK.load l.bodyToCell s3 = (.ok body', s') := by
  obtain ⟨s1, r1, w1, c1, _⟩ := hk.ld.reads _ _ (hk.canon _ h.info) _ _ w0 c0
  have hi := (placed_sound stateInit_sound acc).opt.st.canon _ (init_ok h)
  rw [initEnc_eq] at hi
  obtain ⟨s2, r2, w2, c2, _⟩ := (placed_sound stateInit_sound acc).opt.ld.reads _ _ hi _ _ w1 c1
  obtain ⟨s3, r3, w3, c3, _⟩ := Rd.reads_bit l.bodyToCell _ _ w2 c2
  obtain ⟨b', s4, r4, k4, n4⟩ := hb.reads _ _ h.body s3 w3 c3
  refine ⟨b', s4, ?_, k4, s3, w3, r4⟩
  have r2' : (placed (fun _ => true) Verif.stateInit).opt.load s1 = (.ok (m.init.map fun s => (l.initToCell, s)), s2) := r2
  unfold Msg.load
  rw [Prog.bind_ok r1, Prog.bind_ok r2', Prog.bind_ok r3, Prog.bind_ok r4]
  cases hm : m.init with
  | none => rw [Option.isSome_none, Bool.and_false]; rfl
  | some s => rw [Option.isSome_some, Bool.and_true]; rfl

theorem partsContents_full (e : Enc Cell) : partsContents (fullRange (Tlb.cellOf e), Tlb.cellOf e) = e := by
  obtain ⟨b, r⟩ := e
  show ((b.drop 0).take (b.length - 0), (r.drop 0).take (r.length - 0)) = _
  simp

/-- The message of a transaction, in a cell in canonical form: it is shown as a message, and the same cell is built again. -/
theorem inMsg_back (H : Hasher) {sh : Shuffle} (hsh : Fair sh) {m : Msg MsgInfo (CSlice Cell)} {l : Layout}
    (hm : m.Ok (Boc.emptyContext H) fullKind (sliceOk (Boc.emptyContext H)) l) (hf : (m.enc fullKind sliceEnc l).Fits)
    (hw : (Tlb.cellOf (m.enc fullKind sliceEnc l)).WF H) (hi : okInfo H m.info) (hs : ∀ i, m.init = some i → okInit H i)
    (hbody : Carried H (Tlb.cellOf m.body.contents)) :
    ∃ x, inMsgSer H sh (Tlb.cellOf (m.enc fullKind sliceEnc l)) = some x ∧ inMsgDe H sh x = some (Tlb.cellOf (m.enc fullKind sliceEnc l)) := by
  obtain ⟨w0, c0⟩ := Tlb.reader_contents hf
  obtain ⟨b', s', r, k, s3, w3, r4⟩ := msg_load fullKind_sound (sliceBody_sound (Boc.emptyContext H)) hm w0 c0
  have k : b'.contents = m.body.contents := k
  have wb : b'.WF := body_wf w3 r4
  have hbf : b'.contents.Fits := by rw [k]; exact hm.body.2.1
  have hcell : bodyCell H (sliceBody (Boc.emptyContext H)) b' = some (Tlb.cellOf m.body.contents) := by
    have := bodyCell_ok (H := H) (BK := sliceBody (Boc.emptyContext H)) (b := b') (Wr.writes_slice wb).writes hbf (by rw [k]; exact hbody.1)
    rw [this, k]
  obtain ⟨x, h1, h2⟩ := back_struct (back_messageFields H hsh (back_msgInfo H hsh))
    (m.info, m.init, Tlb.cellOf m.body.contents, some ⟨l.initToCell && m.init.isSome, l.bodyToCell⟩) ⟨hi, hs, hbody, fun _ _ => trivial⟩
  refine ⟨x, ?_, ?_⟩
  · show (if false = true then none else match (Msg.load fullKind (sliceBody (Boc.emptyContext H)) (Sl.reader ⟨(m.enc fullKind sliceEnc l).1, (m.enc fullKind sliceEnc l).2⟩)).1 with
      | .ok m => messageSer H sh (msgInfo H sh) (sliceBody (Boc.emptyContext H)) m
      | .error _ => none) = _
    rw [if_neg (by decide), r]
    show messageSer H sh (msgInfo H sh) (sliceBody (Boc.emptyContext H)) _ = _
    unfold messageSer
    dsimp only
    rw [hcell]
    exact h1
  · unfold inMsgDe messageDe
    rw [h2]
    dsimp only [Option.map_some]
    have hb : partsEnc l.bodyToCell (fullRange (Tlb.cellOf m.body.contents), Tlb.cellOf m.body.contents) = sliceEnc l.bodyToCell m.body := by
      unfold partsEnc sliceEnc partsCell
      cases l.bodyToCell with
      | false => exact partsContents_full _
      | true => simp
    have hl : initEnc ⟨l.initToCell && m.init.isSome, l.bodyToCell⟩ m.init = initEnc l m.init := by
      cases m.init with
      | none => rfl
      | some i => simp [initEnc]
    have hok : (⟨m.info, m.init, (fullRange (Tlb.cellOf m.body.contents), Tlb.cellOf m.body.contents), some ⟨l.initToCell && m.init.isSome, l.bodyToCell⟩⟩
        : Msg MsgInfo (SliceRange × Cell)).Ok (Boc.emptyContext H) fullKind (partsOk (Boc.emptyContext H) (Boc.emptyContext H)) ⟨l.initToCell && m.init.isSome, l.bodyToCell⟩ := by
      refine ⟨hm.info, fun i e => ?_, ⟨⟨Nat.zero_le _, Nat.le_refl _, Nat.zero_le _, Nat.le_refl _⟩, hm.body.2.1, fun _ => ⟨rfl, ?_⟩, fun _ g => absurd rfl g⟩⟩
      · have e : m.init = some i := e
        have := hm.init i e
        rw [e, Option.isSome_some, Bool.and_true]; exact this
      · rw [partsContents_full]; exact (Boc.C91_context H _).2 hbody.1
    have hst := (C58_messages (Boc.emptyContext H) (Boc.emptyContext H)).2.1.store _ hok (by
      rintro ⟨l', e, h1, h2⟩
      injection e with e
      subst e
      have h2 : m.init = none := h2
      rw [h2] at h1
      simp at h1)
    have he : (⟨m.info, m.init, (fullRange (Tlb.cellOf m.body.contents), Tlb.cellOf m.body.contents), some ⟨l.initToCell && m.init.isSome, l.bodyToCell⟩⟩
        : Msg MsgInfo (SliceRange × Cell)).enc fullKind partsEnc ⟨l.initToCell && m.init.isSome, l.bodyToCell⟩ = m.enc fullKind sliceEnc l := by
      unfold Msg.enc
      dsimp only
      rw [hl, hb]
    have hst := Wr.toSl_ok hst (by show Enc.Fits (Msg.enc _ _ _ _); exact he ▸ hf)
    rw [hst]
    show (buildSl _ _).toOption = _
    unfold buildSl
    have hacc : Boc.emptyContext H (.mk false (m.enc fullKind sliceEnc l).1 (m.enc fullKind sliceEnc l).2) = true := (Boc.C91_context H _).2 hw
    have he' : ∀ {a b : Enc Cell}, a = b → Boc.emptyContext H (.mk false b.1 b.2) = true →
        (if Boc.emptyContext H (.mk false a.1 a.2) = true then (.ok (.mk false a.1 a.2) : Except Err Cell) else .error .depthOverflow).toOption = some (Tlb.cellOf b) := by
      rintro a b rfl h
      rw [if_pos h]; rfl
    exact he' he hacc

/-! ### Validators -/

open Vset in
theorem addUp_eq : ∀ (w : Nat) (l : List Validator), w < 2 ^ 64 → addUp w l = if w + weightOf l < 2 ^ 64 then some (weighted w l, w + weightOf l) else none
  | w, [], hw => by
    show some ([], w) = if w + 0 < 2 ^ 64 then some ([], w + 0) else none
    rw [Nat.add_zero, if_pos hw]
  | w, v :: l, hw => by
    unfold addUp
    have e : weightOf (v :: l) = v.weight + weightOf l := by unfold weightOf; simp
    by_cases h : w + v.weight < 2 ^ 64
    · rw [if_pos h, addUp_eq (w + v.weight) l h, e, Nat.add_assoc]
      by_cases g : w + (v.weight + weightOf l) < 2 ^ 64
      · rw [if_pos g, if_pos g]; rfl
      · rw [if_neg g, if_neg g]
    · rw [if_neg h, if_neg (by rw [e]; omega)]

open Vset in
theorem weighted_weightOf : ∀ (w : Nat) (l : List Validator), weightOf (weighted w l) = weightOf l
  | w, [] => rfl
  | w, v :: l => by
    have := weighted_weightOf (w + v.weight) l
    unfold weightOf at *
    simp only [weighted, List.map_cons, List.sum_cons, this]

open Vset in
theorem weighted_weighted : ∀ (w : Nat) (l : List Validator), weighted w (weighted w l) = weighted w l
  | w, [] => rfl
  | w, v :: l => by
    show _ :: weighted (w + v.weight) (weighted (w + v.weight) l) = _
    rw [weighted_weighted (w + v.weight) l]; rfl

open Vset in
theorem weighted_inRange : ∀ (w : Nat) (l : List Validator), (∀ v ∈ l, v.InRange) → ∀ v ∈ weighted w l, v.InRange
  | w, [], h, v, hv => by cases hv
  | w, u :: l, h, v, hv => by
    have hv : v ∈ { u with prevWeight := w } :: weighted (w + u.weight) l := hv
    rcases List.mem_cons.1 hv with rfl | hv
    · exact h u List.mem_cons_self
    · exact weighted_inRange _ l (fun v hv => h v (List.mem_cons_of_mem _ hv)) v hv

/-- A validator without the weight of those before it. -/
def bare (v : Vset.Validator) : Vset.Validator := { v with prevWeight := 0 }

open Vset in
theorem weighted_bare : ∀ (w : Nat) (l : List Validator), weighted w (l.map bare) = weighted w l
  | w, [] => rfl
  | w, v :: l => by
    show _ :: weighted (w + v.weight) (l.map bare) = _
    rw [weighted_bare (w + v.weight) l]; rfl

theorem weightOf_bare (l : List Vset.Validator) : Vset.weightOf (l.map bare) = Vset.weightOf l := by
  unfold Vset.weightOf
  rw [List.map_map]; rfl

theorem back_validator (r : Bool) : Back validator r (fun v => v.InRange ∧ v.prevWeight = 0) :=
  back_struct (good_as (good_and (good_field _ (back_hash r)) (good_and (good_field _ (back_nat r _))
    (good_and (good_fieldOr _ none (back_opt (back_hash r) (solid_hash r))) (good_fieldOr _ 0 (back_nat r _)) (by names)) (by names)) (by names))
    fun v h => ⟨⟨h.1.1, by have := h.1.2.1; show v.weight ≤ _; omega, h.1.2.2.1, by have := h.1.2.2.2; show v.mcSeqnoSince ≤ _; omega⟩,
      by obtain ⟨a, b, c, d, e⟩ := v; have := h.2; dsimp only at this; rw [this]⟩)

theorem only_validator (r : Bool) : Only validator r (fun v => v.InRange ∧ v.prevWeight = 0) :=
  only_struct (only_as (only_and (only_field _ (only_hash r)) (only_and (only_field _ (only_nat r _))
    (only_and (only_fieldOr _ (ok := fun o => ∀ v, o = some v → v.length = 32) (fun v h => by cases h) (only_opt (only_hash r)))
      (only_fieldOr _ (ok := fun v => v ≤ 2 ^ 32 - 1) (Nat.zero_le _) (only_nat r _)))))
    fun p h => ⟨⟨h.1, by have := h.2.1; show p.2.1 < _; omega, h.2.2.1, by have := h.2.2.2; show p.2.2.2 < _; omega⟩, rfl⟩)

theorem validator_ser_bare (r : Bool) (v : Vset.Validator) : validator.ser r (bare v) = validator.ser r v := rfl

theorem back_nonZeroU16 (r : Bool) : Back nonZeroU16 r (fun v => 0 < v ∧ v ≤ 2 ^ 16 - 1) := by
  intro v h
  obtain ⟨x, h1, h2⟩ := back_nat r (2 ^ 16 - 1) v h.2
  refine ⟨x, h1, ?_⟩
  unfold nonZeroU16
  dsimp only
  rw [h2]
  cases v with
  | zero => exact absurd h.1 (by decide)
  | succ v => rfl

theorem only_nonZeroU16 (r : Bool) : Only nonZeroU16 r (fun v => 0 < v ∧ v ≤ 2 ^ 16 - 1) := by
  intro x v h
  unfold nonZeroU16 at h
  dsimp only at h
  cases g : (nat (2 ^ 16 - 1)).de r x with
  | none => rw [g] at h; cases h
  | some w =>
    rw [g] at h
    cases w with
    | zero => cases h
    | succ w => injection h with h; subst h; exact ⟨by omega, only_nat r _ _ _ g⟩

/-- The fields as they are read: in range, without the weights before. -/
def okFields (s : Vset.ValidatorSet) : Prop :=
  s.utimeSince < 2 ^ 32 ∧ s.utimeUntil < 2 ^ 32 ∧ 0 < s.main ∧ s.main < 2 ^ 16 ∧ s.totalWeight < 2 ^ 64 ∧ ∀ v ∈ s.list, v.InRange ∧ v.prevWeight = 0

theorem back_vsetFields (r : Bool) : Back (struct vsetFields) r okFields :=
  back_struct (good_as (good_and (good_field _ (back_nat r _)) (good_and (good_field _ (back_nat r _)) (good_and (good_field _ (back_nonZeroU16 r))
    (good_and (good_fieldOr _ 0 (back_nat r _)) (good_field _ (back_vec (back_validator r))) (by names)) (by names)) (by names)) (by names))
    fun s h => ⟨⟨by have := h.1; show s.utimeSince ≤ _; omega, by have := h.2.1; show s.utimeUntil ≤ _; omega,
      ⟨h.2.2.1, by have := h.2.2.2.1; show s.main ≤ _; omega⟩, by have := h.2.2.2.2.1; show s.totalWeight ≤ _; omega, h.2.2.2.2.2⟩, rfl⟩)

theorem only_vsetFields (r : Bool) : Only (struct vsetFields) r okFields :=
  only_struct (only_as (only_and (only_field _ (only_nat r _)) (only_and (only_field _ (only_nat r _)) (only_and (only_field _ (only_nonZeroU16 r))
    (only_and (only_fieldOr _ (ok := fun v => v ≤ 2 ^ 64 - 1) (Nat.zero_le _) (only_nat r _)) (only_field _ (only_vec (only_validator r)))))))
    fun p h => ⟨by have := h.1; show p.1 < _; omega, by have := h.2.1; show p.2.1 < _; omega, h.2.2.1.1, by have := h.2.2.1.2; show p.2.2.1 < _; omega,
      by have := h.2.2.2.1; show p.2.2.2.1 < _; omega, h.2.2.2.2⟩)

/-- Sets whose weights are added up. -/
def Summed (s : Vset.ValidatorSet) : Prop :=
  s.list ≠ [] ∧ s.list = Vset.weighted 0 s.list ∧ s.totalWeight = Vset.weightOf s.list

theorem vset_de {r : Bool} {x : SV} {p : Vset.ValidatorSet} (h : (struct vsetFields).de r x = some p) :
    vset.de r x = if p.list ≠ [] ∧ Vset.weightOf p.list < 2 ^ 64 ∧ (p.totalWeight = 0 ∨ p.totalWeight = Vset.weightOf p.list) then
      some { p with list := Vset.weighted 0 p.list, totalWeight := Vset.weightOf p.list } else none := by
  unfold vset
  dsimp only
  rw [h]
  dsimp only
  by_cases h1 : p.list = []
  · rw [if_pos h1, if_neg fun g => g.1 h1]
  rw [if_neg h1, addUp_eq 0 p.list (by decide), Nat.zero_add]
  by_cases h2 : Vset.weightOf p.list < 2 ^ 64
  · rw [if_pos h2]
    dsimp only
    by_cases h3 : p.totalWeight = 0 ∨ p.totalWeight = Vset.weightOf p.list
    · rw [if_neg (by rcases h3 with g | g <;> omega), if_pos ⟨h1, h2, h3⟩]
    · rw [if_pos (by omega), if_neg fun g => h3 g.2.2]
  · rw [if_neg h2, if_neg fun g => h2 g.2.1]

theorem vset_ser_bare (r : Bool) (s : Vset.ValidatorSet) : vset.ser r { s with list := s.list.map bare } = vset.ser r s := by
  have e : (s.list.map bare).mapM (validator.ser r) = s.list.mapM (validator.ser r) := by
    have : ∀ l : List Vset.Validator, (l.map bare).mapM (validator.ser r) = l.mapM (validator.ser r) := by
      intro l
      induction l with
      | nil => rfl
      | cons v l ih => rw [List.map_cons, List.mapM_cons, List.mapM_cons, ih, validator_ser_bare]
    exact this s.list
  have e' : (vec validator).ser r (s.list.map bare) = (vec validator).ser r s.list := by
    show Option.map _ _ = Option.map _ _
    rw [e]
  unfold vset struct vsetFields Fields.as Fields.and field
  dsimp only
  rw [e']

end
end Form
end Verif
