import Verif.ConfigDict
import Verif.ConfigParamsProps
import Verif.BlockProps
/-
Properties of the dictionary of configuration parameters.
-/
set_option linter.unusedVariables false
set_option linter.unusedSimpArgs false
namespace Verif
namespace Config

/-! ### Specification -/

/-- The configuration `d` has exactly these parameters, in any form of the dictionary. -/
def Is (acc : Cell → Bool) (d : Option Cell) (m : Nat → Option Cell) : Prop :=
  IsDict params (fun i => i < 2 ^ 32) (natBits 32) (Canon (fun _ => True) Enc.ref) acc d m

/-- `m` with another value at `i`. -/
def put {α : Type} (m : Nat → Option α) (i : Nat) (v : Option α) : Nat → Option α := fun j => if j = i then v else m j

/-- Changes of a configuration. -/
inductive Op
  | setRaw (i : Nat) (c : Cell)
  | set (α : Type) (T : Tlb α) (i : Nat) (v : α)
  | remove (i : Nat)

/-- The code. -/
def Op.run (acc : Cell → Bool) (d : Option Cell) : Op → Bool × Option Cell
  | .setRaw i c => ((Config.setRaw acc d i c).1.isOk, (Config.setRaw acc d i c).2)
  | .set _ T i v => ((Config.set acc (plain i T) d v).1.isOk, (Config.set acc (plain i T) d v).2)
  | .remove i => ((Config.remove acc d i).1.isOk, (Config.remove acc d i).2)

/-- What a change does if it succeeds. -/
def Op.spec (m : Nat → Option Cell) : Op → Nat → Option Cell
  | .setRaw i c => put m i (some c)
  | .set _ T i v => put m i (some (Tlb.cellOf (T.enc v)))
  | .remove i => if i = 0 then m else put m i none

def Op.Ok : Op → Prop
  | .setRaw i _ => i < 2 ^ 32
  | .set _ T i v => i < 2 ^ 32 ∧ T.Sound ∧ T.ok v
  | .remove i => i < 2 ^ 32

/-- A history: which changes were accepted, and the configuration after it. -/
def runAll (acc : Cell → Bool) (d : Option Cell) : List Op → List Bool × Option Cell
  | [] => ([], d)
  | op :: l => ((op.run acc d).1 :: (runAll acc (op.run acc d).2 l).1, (runAll acc (op.run acc d).2 l).2)

/-- The accepted changes, one after another. -/
def specAll (m : Nat → Option Cell) : List (Op × Bool) → Nat → Option Cell
  | [] => m
  | (op, b) :: l => specAll (if b then op.spec m else m) l

/-- A parameter holds a value: its cell begins with an encoding of it. -/
def ParamIs {α : Type} (T : Tlb α) (m : Nat → Option Cell) (i : Nat) (v : α) : Prop := ∃ c, m i = some c ∧ Tlb.CellStarts (T.R v) c

/-- A parameter holds a validator set: it is loaded from its cell (for what is loaded see C68). -/
def SetIs (acc : Cell → Bool) (m : Nat → Option Cell) (i : Nat) (vs : Vset.ValidatorSet) : Prop :=
  ∃ c, m i = some c ∧ Tlb.parseAs (Vset.ValidatorSet.load acc) c = .ok vs

/-- The dictionary `r` is the set of these keys. -/
def NumbersAre (acc : Cell → Bool) (r : Option Cell) (l : List Nat) : Prop :=
  IsDictC numbers (fun i => i < 2 ^ 32) (natBits 32) (fun _ => True) (fun _ => Enc.nil) acc r (fun i => if i ∈ l then some () else none)
@[inherit_doc NumbersAre] def AddressesAre (acc : Cell → Bool) (r : Option Cell) (l : List (List Byte)) : Prop :=
  IsDictC addresses (fun a => a.length = 32) bytesToBits (fun _ => True) (fun _ => Enc.nil) acc r (fun a => if a ∈ l then some () else none)
/-- The dictionary `r` has these prices at the positions of the list. -/
def PricesAre (acc : Cell → Bool) (r : Option Cell) (l : List StoragePrices) : Prop :=
  IsDictC prices (fun i => i < 2 ^ 32) (natBits 32) storagePrices.ok storagePrices.enc acc r (fun i => l[i]?)

/-- A parameter that is set to `v` has the value `w` afterwards, and no other parameter changes; or the set fails and changes nothing. -/
def SetsTo {α β : Type} (acc : Cell → Bool) (run : Option Cell → β → DictRes Bool) (p : Known α) (v : β) (w : α → Prop) : Prop :=
  ∀ d m, Is acc d m → (∃ d', run d v = (.ok true, d') ∧ (∃ x, w x ∧ get p d' = .ok (some x)) ∧
      ∃ c, Is acc d' (put m p.id (some c)) ∧ ∀ (γ : Type) (q : Known γ), q.id < 2 ^ 32 → q.id ≠ p.id → get q d' = get q d) ∨
    ∃ e, run d v = (.error e, d)

/-- Values of a parameter are stored and read back. -/
def Faithful {α : Type} (p : Known α) (ok : α → Prop) : Prop := ∀ acc v, ok v → SetsTo acc (fun d v => set acc p d v) p v (fun w => w = v)

/-! ### Lemmas -/

theorem ref_codes : Codes (fun _ => True) params.store params.load (Canon (fun _ => True) Enc.ref) Enc.ref := Codes.ref

theorem ref_fits (c : Cell) : (Enc.ref c : Enc Cell).Fits := ⟨Nat.zero_le _, by show 1 ≤ 4; decide⟩

section
variable {κ β : Type} [DecidableEq κ] {T : DictType κ β} {okK : κ → Prop} {encK : κ → Bits} {okV : β → Prop} {R : β → Enc Cell → Prop}
  {enc : β → Enc Cell} (hK : KeyCodes T.key okK encK) (hb : T.key.bits ≤ 1023) (hV : Codes okV T.store T.load R enc)
  (hf : ∀ v, okV v → (enc v).Fits) {acc : Cell → Bool} {d : Option Cell} {tm : κ → Option β} (hd : IsDict T okK encK R acc d tm)
include hK hb hV hf hd

/-- Setting an entry of a dictionary in any form. -/
theorem any_set {k : κ} (hk : okK k) {v : β} (hv : okV v) :
    (∃ d', T.insert acc d k v .set = (.ok true, d') ∧ IsDict T okK encK R acc d' (fun j => if j = k then some v else tm j)) ∨
    ∃ e, T.insert acc d k v .set = (.error e, d) := by
  have h := C57_any hK hb hV hf acc hd (.insert .set k v) ⟨hk, hv⟩
  have h' : ((T.insert acc d k v .set).1.map (TOut.flag (β := β)) = .ok (.flag true) ∧
      IsDict T okK encK R acc (T.insert acc d k v .set).2 (fun j => if j = k then some v else tm j)) ∨
    (∃ e, (T.insert acc d k v .set).1.map (TOut.flag (β := β)) = .error e) ∧ (T.insert acc d k v .set).2 = d := by
    rcases h with h | ⟨_, h⟩
    · exact Or.inl h
    · exact Or.inr h
  clear h
  generalize T.insert acc d k v .set = out at h'
  obtain ⟨r, d'⟩ := out
  rcases h' with ⟨h1, h2⟩ | ⟨⟨e, h1⟩, h2⟩
  · cases r with
    | error e => cases h1
    | ok b =>
      have : b = true := by injection h1 with h; injection h
      exact Or.inl ⟨d', by rw [this], h2⟩
  · cases r with
    | error e' => exact Or.inr ⟨e', by rw [show d' = d from h2]⟩
    | ok b => cases h1

theorem any_remove {k : κ} (hk : okK k) :
    (∃ d', T.remove acc d k = (.ok (tm k), d') ∧ IsDict T okK encK R acc d' (fun j => if j = k then none else tm j)) ∨
    ∃ e, T.remove acc d k = (.error e, d) := by
  have h := C57_any hK hb hV hf acc hd (.remove k) hk
  have h' : ((T.remove acc d k).1.map (TOut.value (β := β)) = .ok (.value (tm k)) ∧
      IsDict T okK encK R acc (T.remove acc d k).2 (fun j => if j = k then none else tm j)) ∨
    (∃ e, (T.remove acc d k).1.map (TOut.value (β := β)) = .error e) ∧ (T.remove acc d k).2 = d := by
    rcases h with h | ⟨_, h⟩
    · exact Or.inl h
    · exact Or.inr h
  clear h
  generalize T.remove acc d k = out at h'
  obtain ⟨r, d'⟩ := out
  rcases h' with ⟨h1, h2⟩ | ⟨⟨e, h1⟩, h2⟩
  · cases r with
    | error e => cases h1
    | ok b =>
      have : b = tm k := by injection h1 with h; injection h
      exact Or.inl ⟨d', by rw [this], h2⟩
  · cases r with
    | error e' => exact Or.inr ⟨e', by rw [show d' = d from h2]⟩
    | ok b => cases h1

theorem any_contains {k : κ} (hk : okK k) : T.contains d k = .ok (tm k).isSome := by
  rcases C57_any hK hb hV hf acc hd (.contains k) hk with ⟨h, _⟩ | ⟨h, _⟩
  · have h' : (T.contains d k).map (TOut.flag (β := β)) = .ok (.flag (tm k).isSome) := h
    cases hg : T.contains d k with
    | error e => rw [hg] at h'; cases h'
    | ok x =>
      rw [hg] at h'
      injection h' with h'
      injection h' with h'
      rw [h']
  · exact h.elim

end

theorem getRawCell_is {acc : Cell → Bool} {d : Option Cell} {m : Nat → Option Cell} (hd : Is acc d m) {i : Nat} (hi : i < 2 ^ 32) :
    getRawCell d i = .ok (m i) := by
  obtain ⟨r, h1, h2, h3⟩ := hd
  have hk := (typed_holds (T := params) Key.u32_codes (by decide) ref_codes (fun c _ => ref_fits c)).keyOf hi
  have hraw : dictGet d 32 (natBits 32 i) = .ok (r (natBits 32 i)) := by
    rcases raw_any acc (n := 32) (by decide) d r (.get (natBits 32 i)) h1 (natBits_length _ _) with ⟨h, _⟩ | ⟨_, _, h, _⟩
    · have h' : (dictGet d 32 (natBits 32 i)).map DOut.value = .ok (.value (r (natBits 32 i))) := h
      cases hg : dictGet d 32 (natBits 32 i) with
      | error e => rw [hg] at h'; cases h'
      | ok x =>
        rw [hg] at h'
        injection h' with h'
        injection h' with h'
        rw [h']
    · exact absurd rfl (h _)
  have he : getRawEntry d i = .ok (r (natBits 32 i)) := by
    unfold getRawEntry
    rw [hk.1]
    exact hraw
  have hm := h3 i hi
  unfold getRawCell
  rw [he]
  revert hm
  cases m i with
  | none =>
    cases r (natBits 32 i) with
    | none => intro _; rfl
    | some s => intro h; exact h.elim
  | some c =>
    cases r (natBits 32 i) with
    | none => intro h; exact h.elim
    | some s =>
      rintro ⟨_, _, e, rest, ⟨_, rfl⟩, hc⟩
      have : s.refs = c :: rest.2 := congrArg Prod.snd hc
      dsimp only
      rw [this]

/-- The set of a parameter, in the dictionary. -/
theorem setRaw_is {acc : Cell → Bool} {d : Option Cell} {m : Nat → Option Cell} (hd : Is acc d m) {i : Nat} (hi : i < 2 ^ 32) (c : Cell) :
    (∃ d', setRaw acc d i c = (.ok true, d') ∧ Is acc d' (put m i (some c))) ∨ ∃ e, setRaw acc d i c = (.error e, d) :=
  any_set Key.u32_codes (by decide) ref_codes (fun c _ => ref_fits c) hd hi trivial

theorem remove_is {acc : Cell → Bool} {d : Option Cell} {m : Nat → Option Cell} (hd : Is acc d m) {i : Nat} (hi : i < 2 ^ 32) (h0 : i ≠ 0) :
    (∃ d', remove acc d i = (.ok (m i), d') ∧ Is acc d' (put m i none)) ∨ ∃ e, remove acc d i = (.error e, d) := by
  have hr : remove acc d i = params.remove acc d i := if_neg h0
  rw [hr]
  exact any_remove Key.u32_codes (by decide) ref_codes (fun c _ => ref_fits c) hd hi

/-- Setting a value. -/
theorem set_plain {acc : Cell → Bool} {d : Option Cell} {m : Nat → Option Cell} (hd : Is acc d m) {α : Type} {T : Tlb α} (hT : T.Sound) {i : Nat} (hi : i < 2 ^ 32)
    {v : α} (hv : T.ok v) :
    ((T.child acc).ok v ∧ ∃ d', set acc (plain i T) d v = (.ok true, d') ∧ Is acc d' (put m i (some (Tlb.cellOf (T.enc v))))) ∨
      ∃ e, set acc (plain i T) d v = (.error e, d) := by
  unfold set
  show ((T.child acc).ok v ∧ ∃ d', (match (T.store v).toSl >>= buildSl acc with
    | .error e => (.error e, d)
    | .ok c => setRaw acc d i c) = (.ok true, d') ∧ _) ∨ ∃ e, (match (T.store v).toSl >>= buildSl acc with
    | .error e => (.error e, d)
    | .ok c => setRaw acc d i c) = (.error e, d)
  cases hn : (T.store v).toSl >>= buildSl acc with
  | error e => exact Or.inr ⟨e, rfl⟩
  | ok c =>
    have hc := (hT.lazy_round hv hn).1
    subst hc
    have hok : (T.child acc).ok v := by
      rw [hT.stored hv] at hn
      by_cases hf : (T.enc v).Fits
      · rw [if_pos hf] at hn
        have hn : buildSl acc ⟨(T.enc v).1, (T.enc v).2⟩ = .ok _ := hn
        unfold buildSl at hn
        split at hn
        · rename_i ha; exact ⟨hv, hf, ha⟩
        · cases hn
      · rw [if_neg hf] at hn; cases hn
    rcases setRaw_is hd hi (Tlb.cellOf (T.enc v)) with h | h
    · exact Or.inl ⟨hok, h⟩
    · exact Or.inr h

theorem parseAs_of {α : Type} {T : Tlb α} (hT : T.Sound) {c : Cell} {v : α} (h : Tlb.CellStarts (T.R v) c) : Tlb.parseAs T.load c = .ok v := by
  obtain ⟨hx, hf, e, rest, hR, hc⟩ := h
  unfold Tlb.parseAs
  rw [if_neg (by rw [hx]; decide), if_pos hf]
  obtain ⟨w, ct⟩ := Tlb.reader_contents hf
  obtain ⟨s', hl, _⟩ := hT.ld.reads v e hR _ rest w (ct.trans hc)
  rw [hl]

theorem starts_cellOf {α : Type} {T : Tlb α} (hT : T.Sound) {v : α} (hv : T.ok v) (hf : (T.enc v).Fits) : Tlb.CellStarts (T.R v) (Tlb.cellOf (T.enc v)) :=
  ⟨rfl, hf, T.enc v, Enc.nil, hT.st.canon v hv, (Enc.append_nil _).symm⟩

theorem get_is {acc : Cell → Bool} {d : Option Cell} {m : Nat → Option Cell} (hd : Is acc d m) {α : Type} (p : Known α) (hi : p.id < 2 ^ 32) :
    (m p.id = none → get p d = .ok none) ∧ ∀ c, m p.id = some c → get p d = (Tlb.parseAs p.load c).map some := by
  unfold get
  rw [getRawCell_is hd hi]
  exact ⟨fun h => by rw [h], fun c h => by rw [h]⟩

/-- Getters only look at their own parameter. -/
theorem get_same {acc : Cell → Bool} {d d' : Option Cell} {m m' : Nat → Option Cell} (hd : Is acc d m) (hd' : Is acc d' m') {α : Type} (p : Known α)
    (hi : p.id < 2 ^ 32) (h : m' p.id = m p.id) : get p d' = get p d := by
  unfold get
  rw [getRawCell_is hd hi, getRawCell_is hd' hi, h]

theorem contains_is {acc : Cell → Bool} {d : Option Cell} {m : Nat → Option Cell} (hd : Is acc d m) {i : Nat} (hi : i < 2 ^ 32) :
    contains d i = .ok (m i).isSome :=
  any_contains Key.u32_codes (by decide) ref_codes (fun c _ => ref_fits c) hd hi

theorem Op.step_is {acc : Cell → Bool} {d : Option Cell} {m : Nat → Option Cell} (hd : Is acc d m) {op : Op} (hop : op.Ok) :
    ((op.run acc d).1 = true ∧ Is acc (op.run acc d).2 (op.spec m)) ∨ ((op.run acc d).1 = false ∧ (op.run acc d).2 = d) := by
  cases op with
  | setRaw i c =>
    unfold Op.run
    rcases setRaw_is hd hop c with ⟨d', h, h'⟩ | ⟨e, h⟩
    · dsimp only; rw [h]; exact Or.inl ⟨rfl, h'⟩
    · dsimp only; rw [h]; exact Or.inr ⟨rfl, rfl⟩
  | set α T i v =>
    unfold Op.run
    rcases set_plain hd hop.2.1 hop.1 hop.2.2 with ⟨_, d', h, h'⟩ | ⟨e, h⟩
    · dsimp only; rw [h]; exact Or.inl ⟨rfl, h'⟩
    · dsimp only; rw [h]; exact Or.inr ⟨rfl, rfl⟩
  | remove i =>
    unfold Op.run
    by_cases h0 : i = 0
    · have : Config.remove acc d i = (.ok none, d) := if_pos h0
      dsimp only
      rw [this]
      refine Or.inl ⟨rfl, ?_⟩
      show Is acc d (if i = 0 then m else put m i none)
      rw [if_pos h0]; exact hd
    · have e : Op.spec m (.remove i) = put m i none := if_neg h0
      rw [e]
      rcases remove_is hd hop h0 with ⟨d', h, h'⟩ | ⟨e, h⟩
      · dsimp only; rw [h]; exact Or.inl ⟨rfl, h'⟩
      · dsimp only; rw [h]; exact Or.inr ⟨rfl, rfl⟩

theorem is_nonempty {acc : Cell → Bool} {d : Option Cell} {m : Nat → Option Cell} (hd : Is acc d m) {i : Nat} (hi : i < 2 ^ 32) (h : (m i).isSome = true) :
    d.isSome = true := by
  obtain ⟨r, h1, h2, h3⟩ := hd
  cases d with
  | some c => rfl
  | none =>
    have : r (natBits 32 i) = none := h1 _ (natBits_length _ _)
    have h3 := h3 i hi
    rw [this] at h3
    cases hm : m i with
    | none => rw [hm] at h; cases h
    | some c => rw [hm] at h3; exact h3.elim

/-! ### Dictionaries as values -/

theorem setEach_ok {κ β : Type} [DecidableEq κ] {T : DictType κ β} {okK : κ → Prop} {encK : κ → Bits} {okV : β → Prop} {R : β → Enc Cell → Prop}
    {enc : β → Enc Cell} (hK : KeyCodes T.key okK encK) (hV : Codes okV T.store T.load R enc) {B : Nat}
    (hB : 2 + bitsForLen T.key.bits + T.key.bits + B ≤ 1023) (hf : ∀ v, okV v → (enc v).1.length ≤ B ∧ (enc v).2 = []) {acc : Cell → Bool}
    (hacc : AcceptsTame acc) : ∀ (l : List (κ × β)) {d : Option Cell} {tm : κ → Option β}, IsDictC T okK encK okV enc acc d tm → (∀ e ∈ l, okK e.1 ∧ okV e.2) →
    ∃ d', setEach T acc l d = .ok d' ∧ IsDictC T okK encK okV enc acc d' (fun k => (firstOf l.reverse k).or (tm k))
  | [], d, tm, hd, _ => ⟨d, rfl, hd⟩
  | (k, v) :: l, d, tm, hd, h => by
    have h0 := h (k, v) List.mem_cons_self
    obtain ⟨d1, e1, hd1⟩ := dict_set hK hV hB hf hacc hd h0.1 h0.2
    obtain ⟨d2, e2, hd2⟩ := setEach_ok hK hV hB hf hacc l hd1 fun e he => h e (List.mem_cons_of_mem _ he)
    refine ⟨d2, ?_, ?_⟩
    · unfold setEach
      rw [e1]
      exact e2
    · have key : ∀ (l' : List (κ × β)) x, firstOf (l' ++ [(k, v)]) x = (firstOf l' x).or (if x = k then some v else none) := by
        intro l' x
        induction l' with
        | nil => show (if x = k then some v else none) = _; cases (if x = k then some v else none) <;> rfl
        | cons a l' ih =>
          show (if x = a.1 then some a.2 else firstOf (l' ++ [(k, v)]) x) = (if x = a.1 then some a.2 else firstOf l' x).or _
          by_cases hx : x = a.1
          · rw [if_pos hx, if_pos hx]; rfl
          · rw [if_neg hx, if_neg hx]; exact ih
      have e : (fun x => (firstOf ((k, v) :: l).reverse x).or (tm x)) = fun x => (firstOf l.reverse x).or (if x = k then some v else tm x) := by
        funext x
        rw [List.reverse_cons, key]
        cases firstOf l.reverse x with
        | some y => rfl
        | none =>
          show (if x = k then some v else none).or (tm x) = (if x = k then some v else tm x)
          by_cases hx : x = k
          · rw [if_pos hx, if_pos hx]; rfl
          · rw [if_neg hx, if_neg hx]; rfl
      rw [e]
      exact hd2

/-- A dictionary kept in place of a parameter. -/
theorem set_inPlace {acc : Cell → Bool} {d : Option Cell} {m : Nat → Option Cell} (hd : Is acc d m) {i n : Nat} (hi : i < 2 ^ 32) (hn : n ≤ 1023) {c : Cell} {r : DMap}
    (hr : RepresentsC acc n (some c) r) :
    (∃ d', set acc (nonEmpty acc i n) d (some c) = (.ok true, d') ∧ Is acc d' (put m i (some c)) ∧ get (nonEmpty acc i n) d' = .ok (some (some c))) ∨
      ∃ e, set acc (nonEmpty acc i n) d (some c) = (.error e, d) := by
  have hr0 := hr
  obtain ⟨t, h1, h2, h3, hct, h4⟩ := hr
  have hx : c.exotic = false := by rw [hct]; cases t <;> rfl
  have hok : okCell acc c := by
    rw [hct]
    cases t with
    | leaf l e v => exact h3
    | fork l e x a b => exact h3.1
  have hcell : Cell.mk false c.bits c.refs = c := by rw [hct]; cases t <;> rfl
  obtain ⟨w, ct⟩ := Tlb.reader_contents (b := c.bits) (r := c.refs) ⟨hok.1, hok.2.1⟩
  have hst : ((nonEmpty acc i n).store (some c)).toSl >>= buildSl acc = .ok c := by
    have e1 : (nonEmpty acc i n).store (some c) = Wr.slice (Sl.reader ⟨c.bits, c.refs⟩) := if_neg (by rw [hx]; decide)
    rw [e1, Wr.toSl_ok (e := (c.bits, c.refs)) (ct ▸ (Wr.writes_slice w).writes) ⟨hok.1, hok.2.1⟩]
    show (if acc (.mk false c.bits c.refs) then Except.ok (Cell.mk false c.bits c.refs) else .error Err.depthOverflow) = _
    rw [hcell, if_pos hok.2.2]
  have hrun : set acc (nonEmpty acc i n) d (some c) = setRaw acc d i c := by
    unfold set
    rw [hst]
    rfl
  rw [hrun]
  rcases setRaw_is hd hi c with ⟨d', e, hd'⟩ | h
  · refine Or.inl ⟨d', e, hd', ?_⟩
    have hg := (get_is hd' (nonEmpty acc i n) hi).2 c (if_pos rfl)
    rw [hg]
    unfold Tlb.parseAs
    rw [if_neg (by rw [hx]; decide), if_pos ⟨hok.1, hok.2.1⟩]
    obtain ⟨s', hs, _⟩ := (C68_root_in_place hn hr0 w).1 ct
    have : (nonEmpty acc i n).load (Sl.reader ⟨c.bits, c.refs⟩) = (.ok (some c), s') := by
      show (rootInPlace acc n >>= fun c => pure (some c)) _ = _
      rw [Prog.bind_ok hs]
      rfl
    rw [this]
    rfl
  · exact Or.inr h

theorem unit_codes : Codes (fun _ : Unit => True) (fun _ => (pure () : Wr Cell Unit)) (pure () : Rd Cell Unit) (Canon (fun _ => True) (fun _ => Enc.nil)) (fun _ => Enc.nil) :=
  Codes.ofCanon (fun _ _ => Writes.pure) (fun _ _ s rest hs hc => ⟨s, rfl, hs, by rw [hc, Enc.nil_append], rfl, rfl⟩)
    (fun s s' v hs h => by
      cases h
      exact ⟨Enc.nil, ⟨trivial, rfl⟩, by rw [Enc.nil_append], hs⟩)
    (fun s hs => ⟨hs, ⟨Enc.nil, by rw [Enc.nil_append]; rfl⟩, (by simp [pure, Pure.pure]), (by simp [pure, Pure.pure])⟩)

theorem parseAs_inv {α : Type} {T : Tlb α} (hT : T.Sound) {c : Cell} {v : α} (h : Tlb.parseAs T.load c = .ok v) : Tlb.CellStarts (T.R v) c := by
  unfold Tlb.parseAs at h
  by_cases hx : c.exotic = true
  · rw [if_pos hx] at h; cases h
  · rw [if_neg hx] at h
    by_cases hf : c.bits.length ≤ 1023 ∧ c.refs.length ≤ 4
    · rw [if_pos hf] at h
      obtain ⟨w, ct⟩ := Tlb.reader_contents hf
      obtain ⟨e, hR, hc, _⟩ := hT.ld.exact _ _ v w (Prod.ext h rfl)
      exact ⟨by simpa using hx, hf, e, _, hR, by rw [← ct]; exact hc⟩
    · rw [if_neg hf] at h; cases h

theorem map_some_ok {α : Type} {x : Except Err α} {v : α} : x.map some = .ok (some v) ↔ x = .ok v := by
  cases x with
  | error e => exact ⟨fun h => (by cases h), fun h => (by cases h)⟩
  | ok a =>
    constructor
    · intro h
      have h : (Except.ok (some a) : Except Err (Option α)) = .ok (some v) := h
      injection h with h
      injection h with h
      rw [h]
    · intro h
      injection h with h
      rw [h]; rfl

theorem map_some_none {α : Type} {x : Except Err α} : x.map some ≠ .ok none := by
  cases x with
  | error e => intro h; cases h
  | ok a => intro h; have h : (Except.ok (some a) : Except Err (Option α)) = .ok none := h; injection h with h; cases h

theorem get_some {acc : Cell → Bool} {d : Option Cell} {m : Nat → Option Cell} (hd : Is acc d m) {α : Type} (p : Known α) (hi : p.id < 2 ^ 32) (v : α) :
    get p d = .ok (some v) ↔ ∃ c, m p.id = some c ∧ Tlb.parseAs p.load c = .ok v := by
  have h := get_is hd p hi
  cases hm : m p.id with
  | none =>
    rw [h.1 hm]
    exact ⟨fun h => (by cases h), fun ⟨c, h, _⟩ => (by cases h)⟩
  | some c =>
    rw [h.2 c hm, map_some_ok]
    exact ⟨fun h => ⟨c, rfl, h⟩, fun ⟨c', h, h'⟩ => by injection h with h; rw [h]; exact h'⟩

theorem get_none {acc : Cell → Bool} {d : Option Cell} {m : Nat → Option Cell} (hd : Is acc d m) {α : Type} (p : Known α) (hi : p.id < 2 ^ 32) :
    get p d = .ok none ↔ m p.id = none := by
  have h := get_is hd p hi
  cases hm : m p.id with
  | none => exact ⟨fun _ => rfl, fun _ => h.1 hm⟩
  | some c =>
    rw [h.2 c hm]
    exact ⟨fun h => absurd h map_some_none, fun h => (by cases h)⟩

theorem required_ok {α : Type} {p : Known α} {d : Option Cell} {v : α} : required p d = .ok v ↔ get p d = .ok (some v) := by
  unfold required
  cases get p d with
  | error e => exact ⟨fun h => (by cases h), fun h => (by cases h)⟩
  | ok o => cases o with
    | none => exact ⟨fun h => (by cases h), fun h => (by cases h)⟩
    | some w => exact ⟨fun h => by injection h with h; rw [h], fun h => by injection h with h; injection h with h; rw [h]⟩

theorem requiredOr_ok {α : Type} {p q : Known α} {d : Option Cell} {v : α} : requiredOr p q d = .ok v ↔
    get p d = .ok (some v) ∨ (get p d = .ok none ∧ get q d = .ok (some v)) := by
  unfold requiredOr
  cases get p d with
  | error e => exact ⟨fun h => (by cases h), fun h => (by rcases h with h | ⟨h, _⟩ <;> cases h)⟩
  | ok o => cases o with
    | none =>
      dsimp only
      rw [required_ok]
      exact ⟨fun h => Or.inr ⟨rfl, h⟩, fun h => h.elim (fun h => (by cases h)) fun h => h.2⟩
    | some w =>
      exact ⟨fun h => by injection h with h; rw [h]; exact Or.inl rfl, fun h => h.elim (fun h => by injection h with h; injection h with h; rw [h]) fun h => (by cases h.1)⟩

theorem optionalOr_some {α : Type} {p q : Known α} {d : Option Cell} {v : α} : optionalOr p q d = .ok (some v) ↔
    get p d = .ok (some v) ∨ (get p d = .ok none ∧ get q d = .ok (some v)) := by
  unfold optionalOr
  cases get p d with
  | error e => exact ⟨fun h => (by cases h), fun h => (by rcases h with h | ⟨h, _⟩ <;> cases h)⟩
  | ok o => cases o with
    | none => exact ⟨fun h => Or.inr ⟨rfl, h⟩, fun h => h.elim (fun h => (by cases h)) fun h => h.2⟩
    | some w => exact ⟨fun h => Or.inl h, fun h => h.elim id fun h => (by cases h.1)⟩

theorem optionalOr_none {α : Type} {p q : Known α} {d : Option Cell} : optionalOr p q d = .ok none ↔ get p d = .ok none ∧ get q d = .ok none := by
  unfold optionalOr
  cases get p d with
  | error e => exact ⟨fun h => (by cases h), fun h => (by cases h.1)⟩
  | ok o => cases o with
    | none => exact ⟨fun h => ⟨rfl, h⟩, fun h => h.2⟩
    | some w => exact ⟨fun h => (by cases h), fun h => (by cases h.1)⟩

theorem plain_faithful {α : Type} {T : Tlb α} (hT : T.Sound) {i : Nat} (hi : i < 2 ^ 32) : Faithful (plain i T) T.ok := by
  intro acc v hv d m hd
  rcases set_plain hd hT hi hv with ⟨hok, d', e, hd'⟩ | h
  · refine Or.inl ⟨d', e, ⟨v, rfl, ?_⟩, _, hd', fun γ q hq hne => get_same hd hd' q hq (if_neg hne)⟩
    exact (get_some hd' (plain i T) hi v).2 ⟨_, if_pos rfl, parseAs_of hT (starts_cellOf hT hv hok.2.1)⟩
  · exact Or.inr h

theorem numbers_key : KeyCodes numbers.key (fun i => i < 2 ^ 32) (natBits 32) := Key.u32_codes
theorem addresses_key : KeyCodes addresses.key (fun a => a.length = 32) bytesToBits := Key.hash_codes
theorem prices_key : KeyCodes prices.key (fun i => i < 2 ^ 32) (natBits 32) := Key.u32_codes

theorem prices_codes : Codes storagePrices.ok prices.store prices.load storagePrices.R storagePrices.enc where
  writes := storagePrices_sound.st.writes
  canon := storagePrices_sound.st.canon
  valid := by
    rintro v e ⟨_, _, _, ⟨_, _, h1, ⟨_, _, h2, ⟨_, _, h3, ⟨_, _, h4, h5, _⟩, _⟩, _⟩, _⟩, _⟩
    exact ⟨h1.1, h2.1, h3.1, h4.1, h5.1⟩
  reads := storagePrices_sound.ld.reads
  exact := storagePrices_sound.ld.exact
  safe := storagePrices_sound.ld.safe

theorem firstOf_map {κ : Type} [DecidableEq κ] (l : List κ) (x : κ) : firstOf (l.map fun i => (i, ())) x = if x ∈ l then some () else none := by
  induction l with
  | nil => rfl
  | cons a l ih =>
    show (if x = a then some () else firstOf (l.map fun i => (i, ())) x) = _
    by_cases h : x = a
    · rw [if_pos h, if_pos (by rw [h]; exact List.mem_cons_self)]
    · rw [if_neg h, ih]
      by_cases hm : x ∈ l
      · rw [if_pos hm, if_pos (List.mem_cons_of_mem _ hm)]
      · rw [if_neg hm, if_neg (by simp [h, hm])]

/-- A loop that fills a dictionary, kept in place of the parameter. -/
theorem built_inPlace {κ β : Type} [DecidableEq κ] {T : DictType κ β} {okK : κ → Prop} {encK : κ → Bits} {okV : β → Prop} {R : β → Enc Cell → Prop}
    {enc : β → Enc Cell} (hK : KeyCodes T.key okK encK) (hV : Codes okV T.store T.load R enc) {B : Nat}
    (hB : 2 + bitsForLen T.key.bits + T.key.bits + B ≤ 1023) (hf : ∀ v, okV v → (enc v).1.length ≤ B ∧ (enc v).2 = []) {acc : Cell → Bool}
    (hacc : AcceptsTame acc) {l : List (κ × β)} (hl : ∀ e ∈ l, okK e.1 ∧ okV e.2) (hne : l ≠ []) {i : Nat} (hi : i < 2 ^ 32) :
    SetsTo acc (fun d l => setBuilt T acc (nonEmpty acc i T.key.bits) d l) (nonEmpty acc i T.key.bits) l
      (fun r => IsDictC T okK encK okV enc acc r (firstOf l.reverse)) := by
  intro d m hd
  obtain ⟨r, e, hr⟩ := setEach_ok hK hV hB hf hacc l (C57_empty acc) hl
  have hr : IsDictC T okK encK okV enc acc r (firstOf l.reverse) := by
    have : (fun k => (firstOf l.reverse k).or none) = firstOf l.reverse := by funext k; cases firstOf l.reverse k <;> rfl
    rw [this] at hr
    exact hr
  have hrun : setBuilt T acc (nonEmpty acc i T.key.bits) d l = set acc (nonEmpty acc i T.key.bits) d r := by
    unfold setBuilt
    rw [e]
  dsimp only
  rw [hrun]
  have hr0 := hr
  obtain ⟨raw, h1, h2⟩ := hr
  cases r with
  | none =>
    exfalso
    obtain ⟨a, l', hal⟩ : ∃ a l', l.reverse = a :: l' := by
      cases hx : l.reverse with
      | nil => exact absurd (List.reverse_eq_nil_iff.1 hx) hne
      | cons a l' => exact ⟨a, l', rfl⟩
    have ha : a ∈ l := by rw [← List.mem_reverse, hal]; exact List.mem_cons_self
    have hk := (hl a ha).1
    have h3 := h2.2 a.1 hk
    have h4 : raw (encK a.1) = none := h1 _ (hK.length _ hk)
    have h5 : firstOf l.reverse a.1 = some a.2 := by
      rw [hal]
      exact if_pos rfl
    rw [h4, h5] at h3
    exact h3
  | some c =>
    rcases set_inPlace hd hi (by omega) h1 with ⟨d', e, hd', hg⟩ | h
    · exact Or.inl ⟨d', e, ⟨_, hr0, hg⟩, c, hd', fun γ q hq hne => get_same hd hd' q hq (if_neg hne)⟩
    · exact Or.inr h

theorem unit_small : ∀ v : Unit, True → (Enc.nil : Enc Cell).1.length ≤ 0 ∧ (Enc.nil : Enc Cell).2 = [] := fun _ _ => ⟨Nat.le_refl _, rfl⟩

theorem prices_small (v : StoragePrices) (h : storagePrices.ok v) : (storagePrices.enc v).1.length ≤ 296 ∧ (storagePrices.enc v).2 = [] := by
  constructor
  · show (natBits 8 0xcc ++ (natBits 32 v.utimeSince ++ (natBits 64 v.bitPrice ++ (natBits 64 v.cellPrice ++ (natBits 64 v.mcBitPrice ++ natBits 64 v.mcCellPrice))))).length ≤ 296
    simp only [List.length_append, natBits_length]
    omega
  · rfl

theorem setsTo_mono {α β : Type} {acc : Cell → Bool} {run : Option Cell → β → DictRes Bool} {p : Known α} {v : β} {w w' : α → Prop} (h : SetsTo acc run p v w)
    (hw : ∀ x, w x → w' x) : SetsTo acc run p v w' := by
  intro d m hd
  rcases h d m hd with ⟨d', e, ⟨x, hx, hg⟩, c⟩ | h
  · exact Or.inl ⟨d', e, ⟨x, hw x hx, hg⟩, c⟩
  · exact Or.inr h

/-- The positions of a list, as entries. -/
theorem firstOf_index {β : Type} : ∀ (l : List β) (b x : Nat), firstOf ((l.zipIdx b).map fun q => (q.2, q.1)) x = if b ≤ x then l[x - b]? else none
  | [], b, x => by
    show none = _
    by_cases h : b ≤ x
    · rw [if_pos h]; rfl
    · rw [if_neg h]
  | a :: l, b, x => by
    show (if x = b then some a else firstOf ((l.zipIdx (b + 1)).map fun q => (q.2, q.1)) x) = _
    rw [firstOf_index l (b + 1) x]
    by_cases h : x = b
    · subst h
      rw [if_pos rfl, if_pos (Nat.le_refl _), Nat.sub_self]
      rfl
    · rw [if_neg h]
      by_cases h2 : b + 1 ≤ x
      · rw [if_pos h2, if_pos (by omega), show x - b = (x - (b + 1)) + 1 by omega]
        rfl
      · rw [if_neg h2, if_neg (by omega)]

/-- With distinct keys the order does not matter. -/
theorem firstOf_iff {κ β : Type} [DecidableEq κ] {l : List (κ × β)} (hn : (l.map Prod.fst).Nodup) (x : κ) (v : β) : firstOf l x = some v ↔ (x, v) ∈ l := by
  induction l with
  | nil => exact ⟨fun h => (by cases h), fun h => (by cases h)⟩
  | cons a l ih =>
    have hn' := List.nodup_cons.1 hn
    show (if x = a.1 then some a.2 else firstOf l x) = some v ↔ _
    by_cases h : x = a.1
    · rw [if_pos h]
      constructor
      · intro e; injection e with e; rw [h, ← e]; exact List.mem_cons_self
      · intro e
        rcases List.mem_cons.1 e with e | e
        · rw [← e]
        · exact absurd (List.mem_map.2 ⟨_, e, h⟩) hn'.1
    · rw [if_neg h, ih hn'.2]
      constructor
      · exact List.mem_cons_of_mem _
      · intro e
        rcases List.mem_cons.1 e with e | e
        · rw [← e] at h; exact absurd rfl h
        · exact e

theorem firstOf_reverse {κ β : Type} [DecidableEq κ] {l : List (κ × β)} (hn : (l.map Prod.fst).Nodup) : firstOf l.reverse = firstOf l := by
  funext x
  have hn' : (l.reverse.map Prod.fst).Nodup := by
    rw [List.map_reverse]
    exact (List.reverse_perm _).nodup_iff.2 hn
  have key : ∀ v, firstOf l.reverse x = some v ↔ firstOf l x = some v := fun v => by
    rw [firstOf_iff hn', firstOf_iff hn, List.mem_reverse]
  cases h : firstOf l x with
  | some v => exact (key v).2 h
  | none =>
    cases h' : firstOf l.reverse x with
    | none => rfl
    | some v => rw [(key v).1 h'] at h; cases h

/-- One entry fits a dictionary. -/
theorem single {acc : Cell → Bool} (hacc : AcceptsTame acc) {c : Cell} (hc : Tame 1023 c) {i : Nat} (hi : i < 2 ^ 32) :
    ∃ d', IsDictC params (fun i => i < 2 ^ 32) (natBits 32) (fun _ => True) Enc.ref acc d' (put (fun _ => none) i (some c)) := by
  have hlen : (natBits 32 i).length = 32 := natBits_length _ _
  have hle : (labelBits (natBits 32 i) 32).length ≤ 40 := by
    have := labelBits_le (natBits 32 i) 32 (by rw [hlen])
    rw [hlen] at this
    have h6 : bitsForLen 32 = 6 := by decide
    omega
  refine ⟨some (Trie.leaf (natBits 32 i) (labelBits (natBits 32 i) 32) ⟨[], [c]⟩).cell, fun k => if k = natBits 32 i then some ⟨[], [c]⟩ else none, ?_, ?_⟩
  · refine ⟨Trie.leaf (natBits 32 i) (labelBits (natBits 32 i) 32) ⟨[], [c]⟩, ⟨hlen, labelBits_enc _ 32 (by rw [hlen])⟩, rfl, ?_, rfl, fun k _ => rfl⟩
    refine ⟨?_, by show 1 ≤ 4; decide, hacc _ ?_⟩
    · show (labelBits (natBits 32 i) 32 ++ []).length ≤ 1023
      rw [List.append_nil]; omega
    · refine ⟨rfl, ?_, by show 1 ≤ 4; decide, fun r hr => ?_⟩
      · show (labelBits (natBits 32 i) 32 ++ []).length ≤ 1023
        rw [List.append_nil]; omega
      · rw [List.mem_singleton.1 hr]; exact hc
  · refine ⟨fun k s hk h => ?_, fun x hx => ?_⟩
    · dsimp only at h
      by_cases hk : k = natBits 32 i
      · exact ⟨i, hi, hk.symm⟩
      · rw [if_neg hk] at h; cases h
    · unfold put
      dsimp only
      by_cases h : x = i
      · rw [if_pos h, h, if_pos rfl]
        exact ⟨trivial, ref_fits c, rfl⟩
      · rw [if_neg h, if_neg (fun e => h (natBits_inj hx hi e))]
        trivial

theorem any_of_canonical {κ β : Type} {T : DictType κ β} {okK : κ → Prop} {encK : κ → Bits} {okV : β → Prop} {R : β → Enc Cell → Prop}
    {enc : β → Enc Cell} (hV : Codes okV T.store T.load R enc) {acc : Cell → Bool} {d : Option Cell} {tm : κ → Option β} (hd : IsDictC T okK encK okV enc acc d tm) :
    IsDict T okK encK R acc d tm := by
  obtain ⟨m, h1, h2, h3⟩ := hd
  refine ⟨m, representsC_any h1, h2, fun x hx => ?_⟩
  have := h3 x hx
  revert this
  cases tm x <;> cases m (encK x) <;> intro h <;> first | exact h | exact holds_exactly hV h

theorem step_set {κ β : Type} [DecidableEq κ] {T : DictType κ β} {okK : κ → Prop} {encK : κ → Bits} {okV : β → Prop} {R : β → Enc Cell → Prop}
    {enc : β → Enc Cell} (hK : KeyCodes T.key okK encK) (hb : T.key.bits ≤ 1023) (hV : Codes okV T.store T.load R enc)
    (hf : ∀ v, okV v → (enc v).Fits) {acc : Cell → Bool} {d : Option Cell} {tm : κ → Option β} (hd : IsDictC T okK encK okV enc acc d tm)
    {k : κ} (hk : okK k) {v : β} (hv : okV v) (hex : ∃ d', IsDictC T okK encK okV enc acc d' (fun j => if j = k then some v else tm j)) :
    ∃ d', T.insert acc d k v .set = (.ok true, d') ∧ IsDictC T okK encK okV enc acc d' (fun j => if j = k then some v else tm j) := by
  have h := C57_step hK hb hV hf acc hd (.insert .set k v) ⟨hk, hv⟩
  have h' : (T.insert acc d k v .set).1.map (TOut.flag (β := β)) = .ok (.flag true) ∧
      IsDictC T okK encK okV enc acc (T.insert acc d k v .set).2 (fun j => if j = k then some v else tm j) := by
    rcases h with h | ⟨_, _, _, h⟩
    · exact h
    · exact absurd hex h
  clear h
  generalize T.insert acc d k v .set = out at h'
  obtain ⟨r, d'⟩ := out
  obtain ⟨h1, h2⟩ := h'
  cases r with
  | error e => cases h1
  | ok b =>
    have : b = true := by injection h1 with h; injection h
    exact ⟨d', by rw [this], h2⟩

/-! ### Properties -/

/-- **C72, reading.** A getter gives the value of its own parameter and nothing else: nothing if there is no such parameter, a value exactly if the cell of
the parameter is an ordinary cell that begins with an encoding of it; anything else is an error. `contains` tells whether there is such a parameter. -/
theorem C72_get {acc : Cell → Bool} {d : Option Cell} {m : Nat → Option Cell} (hd : Is acc d m) {α : Type} {T : Tlb α} (hT : T.Sound) {i : Nat} (hi : i < 2 ^ 32) :
    (get (plain i T) d = .ok none ↔ m i = none) ∧ (∀ v, get (plain i T) d = .ok (some v) ↔ ParamIs T m i v) ∧
    (∀ v, required (plain i T) d = .ok v ↔ ParamIs T m i v) ∧ contains d i = .ok (m i).isSome ∧ getRawCell d i = .ok (m i) := by
  have h : ∀ v, get (plain i T) d = .ok (some v) ↔ ParamIs T m i v := fun v => by
    rw [get_some hd (plain i T) hi v]
    exact ⟨fun ⟨c, h1, h2⟩ => ⟨c, h1, parseAs_inv hT h2⟩, fun ⟨c, h1, h2⟩ => ⟨c, h1, parseAs_of hT h2⟩⟩
  exact ⟨get_none hd (plain i T) hi, h, fun v => required_ok.trans (h v), contains_is hd hi, getRawCell_is hd hi⟩

/-- **C72, writing.** Each of the parameters is set to the given value and read back as this value; a set changes no other parameter, and a set that
fails changes nothing. -/
theorem C72_table : Faithful p0 Tlb.hash.ok ∧ Faithful p1 Tlb.hash.ok ∧ Faithful p2 Tlb.hash.ok ∧ Faithful p3 Tlb.hash.ok ∧ Faithful p4 Tlb.hash.ok ∧
    Faithful p5 burningConfig.ok ∧ Faithful p7 Tlb.dict.ok ∧ Faithful p8 globalVersion.ok ∧ Faithful p11 votingSetup.ok ∧ Faithful p12 Tlb.dict.ok ∧
    Faithful p14 blockRewards.ok ∧ Faithful p15 electionTimings.ok ∧ Faithful p16 validatorCounts.ok ∧ Faithful p17 stakeParams.ok ∧
    Faithful p19 Tlb.i32.ok ∧ (∀ mc, Faithful (gasParam mc) gasPrices.ok) ∧ (∀ mc, Faithful (limitsParam mc) blockLimits.ok) ∧
    (∀ mc, Faithful (fwdParam mc) fwdPrices.ok) ∧ Faithful p28 catchainConfig.ok ∧ Faithful p29 consensusConfig.ok ∧ Faithful p31 Tlb.dict.ok ∧
    Faithful p43 sizeLimits.ok ∧ Faithful p50 mintOnce.ok :=
  ⟨plain_faithful Tlb.hash_sound (by decide), plain_faithful Tlb.hash_sound (by decide), plain_faithful Tlb.hash_sound (by decide),
    plain_faithful Tlb.hash_sound (by decide), plain_faithful Tlb.hash_sound (by decide), plain_faithful burningConfig_sound (by decide),
    plain_faithful Tlb.dict_sound (by decide), plain_faithful globalVersion_sound (by decide), plain_faithful votingSetup_sound (by decide),
    plain_faithful Tlb.dict_sound (by decide), plain_faithful blockRewards_sound (by decide), plain_faithful electionTimings_sound (by decide),
    plain_faithful validatorCounts_sound (by decide), plain_faithful stakeParams_sound (by decide), plain_faithful Tlb.i32_sound (by decide),
    fun mc => by cases mc <;> exact plain_faithful gasPrices_sound (by decide), fun mc => by cases mc <;> exact plain_faithful blockLimits_sound (by decide),
    fun mc => by cases mc <;> exact plain_faithful fwdPrices_sound (by decide), plain_faithful catchainConfig_sound (by decide),
    plain_faithful consensusConfig_sound (by decide), plain_faithful Tlb.dict_sound (by decide), plain_faithful sizeLimits_sound (by decide),
    plain_faithful mintOnce_sound (by decide)⟩

/-- **C72, numbers.** No two of the parameters share a number; in particular the prices and limits of the masterchain and of the other workchains are apart. -/
theorem C72_apart (acc : Cell → Bool) : [p0.id, p1.id, p2.id, p3.id, p4.id, p5.id, p7.id, p8.id, (p9 acc).id, (p10 acc).id, p11.id, p12.id, p14.id, p15.id,
    p16.id, p17.id, (p18 acc).id, p19.id, (gasParam true).id, (gasParam false).id, (limitsParam true).id, (limitsParam false).id, (fwdParam true).id,
    (fwdParam false).id, p28.id, p29.id, p31.id, (vset acc 32).id, (vset acc 33).id, (vset acc 34).id, (vset acc 35).id, (vset acc 36).id, (vset acc 37).id,
    p43.id, p50.id].Nodup := by
  show [0, 1, 2, 3, 4, 5, 7, 8, 9, 10, 11, 12, 14, 15, 16, 17, 18, 19, 20, 21, 22, 23, 24, 25, 28, 29, 31, 32, 33, 34, 35, 36, 37, 43, 50].Nodup
  decide

/-- **C72, removing.** The removed cell is returned, the parameter is absent afterwards and the others are not affected; the parameter 0 cannot be removed. -/
theorem C72_remove {acc : Cell → Bool} {d : Option Cell} {m : Nat → Option Cell} (hd : Is acc d m) {i : Nat} (hi : i < 2 ^ 32) :
    (i = 0 → remove acc d i = (.ok none, d)) ∧
    (i ≠ 0 → (∃ d', remove acc d i = (.ok (m i), d') ∧ Is acc d' (put m i none)) ∨ ∃ e, remove acc d i = (.error e, d)) :=
  ⟨fun h => if_pos h, remove_is hd hi⟩

/-- **C72, histories.** After any history of sets and removals, the configuration has exactly the parameters that the accepted changes leave. A parameter 0
that was there is still there, so that the configuration can be stored (an empty one cannot). -/
theorem C72_history {acc : Cell → Bool} (ops : List Op) (hops : ∀ op ∈ ops, op.Ok) : ∀ {d : Option Cell} {m : Nat → Option Cell}, Is acc d m →
    Is acc (runAll acc d ops).2 (specAll m (ops.zip (runAll acc d ops).1)) ∧ (runAll acc d ops).1.length = ops.length ∧
    ((m 0).isSome = true → (specAll m (ops.zip (runAll acc d ops).1) 0).isSome = true ∧
      ∃ c, (runAll acc d ops).2 = some c ∧ (Tlb.mandatory.store (runAll acc d ops).2).toSl = .ok ⟨[], [c]⟩) := by
  have last : ∀ {d : Option Cell} {m : Nat → Option Cell}, Is acc d m → (m 0).isSome = true →
      ∃ c, d = some c ∧ (Tlb.mandatory.store d).toSl = .ok ⟨[], [c]⟩ := by
    intro d m hd h
    have hs := is_nonempty hd (i := 0) (by decide) h
    cases d with
    | none => cases hs
    | some c => exact ⟨c, rfl, Wr.toSl_ok (e := Enc.ref c) (Wr.writes_ref c).writes (ref_fits c)⟩
  induction ops with
  | nil => intro d m hd; exact ⟨hd, rfl, fun h => ⟨h, last hd h⟩⟩
  | cons op ops ih =>
    intro d m hd
    have ho := hops op List.mem_cons_self
    have keep : ∀ b : Bool, (m 0).isSome = true → ((if b then op.spec m else m) 0).isSome = true := by
      intro b h
      cases b with
      | false => exact h
      | true =>
        show (op.spec m 0).isSome = true
        cases op with
        | setRaw i c =>
          show (put m i (some c) 0).isSome = true
          unfold put
          split
          · rfl
          · exact h
        | set α T i v =>
          show (put m i (some (Tlb.cellOf (T.enc v))) 0).isSome = true
          unfold put
          split
          · rfl
          · exact h
        | remove i =>
          show ((if i = 0 then m else put m i none) 0).isSome = true
          split
          · exact h
          · unfold put
            rename_i h0
            rw [if_neg (fun e => h0 e.symm)]
            exact h
    have hstep : Is acc (op.run acc d).2 (if (op.run acc d).1 then op.spec m else m) := by
      rcases Op.step_is hd ho with ⟨e, h⟩ | ⟨e, h⟩
      · rw [e]; exact h
      · rw [e, h]; exact hd
    obtain ⟨g1, g2, g3⟩ := ih (fun o h => hops o (List.mem_cons_of_mem _ h)) hstep
    refine ⟨g1, ?_, fun h => g3 (keep _ h)⟩
    show (runAll acc (op.run acc d).2 ops).1.length + 1 = ops.length + 1
    rw [g2]

/-- **C72, addresses.** The minter is the parameter 2 or else the parameter 0, the fee collector is the parameter 3 or else the parameter 1. -/
theorem C72_addresses {acc : Cell → Bool} {d : Option Cell} {m : Nat → Option Cell} (hd : Is acc d m) (a : List Byte) :
    (electorAddress d = .ok a ↔ ParamIs Tlb.hash m 1 a) ∧
    (minterAddress d = .ok a ↔ ParamIs Tlb.hash m 2 a ∨ (m 2 = none ∧ ParamIs Tlb.hash m 0 a)) ∧
    (feeCollectorAddress d = .ok a ↔ ParamIs Tlb.hash m 3 a ∨ (m 3 = none ∧ ParamIs Tlb.hash m 1 a)) := by
  have h := fun (i : Nat) (hi : i < 2 ^ 32) => C72_get hd Tlb.hash_sound hi
  refine ⟨(h 1 (by decide)).2.2.1 a, ?_, ?_⟩
  · unfold minterAddress
    rw [requiredOr_ok, show p2 = plain 2 Tlb.hash from rfl, show p0 = plain 0 Tlb.hash from rfl, (h 2 (by decide)).1, (h 2 (by decide)).2.1, (h 0 (by decide)).2.1]
  · unfold feeCollectorAddress
    rw [requiredOr_ok, show p3 = plain 3 Tlb.hash from rfl, show p1 = plain 1 Tlb.hash from rfl, (h 3 (by decide)).1, (h 3 (by decide)).2.1, (h 1 (by decide)).2.1]

/-- **C72, validator sets.** The temporary sets (33, 35, 37) take precedence over the others (32, 34, 36); there is a previous or next set exactly if one of
both parameters is present. -/
theorem C72_validator_sets {acc : Cell → Bool} {d : Option Cell} {m : Nat → Option Cell} (hd : Is acc d m) :
    (∀ vs, previousSet acc d = .ok (some vs) ↔ SetIs acc m 33 vs ∨ (m 33 = none ∧ SetIs acc m 32 vs)) ∧
    (∀ vs, currentSet acc d = .ok vs ↔ SetIs acc m 35 vs ∨ (m 35 = none ∧ SetIs acc m 34 vs)) ∧
    (∀ vs, nextSet acc d = .ok (some vs) ↔ SetIs acc m 37 vs ∨ (m 37 = none ∧ SetIs acc m 36 vs)) ∧
    (previousSet acc d = .ok none ↔ m 33 = none ∧ m 32 = none) ∧ (nextSet acc d = .ok none ↔ m 37 = none ∧ m 36 = none) ∧
    containsPrevious d = .ok ((m 32).isSome || (m 33).isSome) ∧ containsNext d = .ok ((m 36).isSome || (m 37).isSome) := by
  have hs := fun (i : Nat) (hi : i < 2 ^ 32) vs => get_some hd (vset acc i) hi vs
  have hn := fun (i : Nat) (hi : i < 2 ^ 32) => get_none hd (vset acc i) hi
  refine ⟨fun vs => ?_, fun vs => ?_, fun vs => ?_, ?_, ?_, ?_, ?_⟩
  · unfold previousSet
    rw [optionalOr_some, hs 33 (by decide), hn 33 (by decide), hs 32 (by decide)]
    rfl
  · unfold currentSet
    rw [requiredOr_ok, hs 35 (by decide), hn 35 (by decide), hs 34 (by decide)]
    rfl
  · unfold nextSet
    rw [optionalOr_some, hs 37 (by decide), hn 37 (by decide), hs 36 (by decide)]
    rfl
  · unfold previousSet
    rw [optionalOr_none, hn 33 (by decide), hn 32 (by decide)]
    rfl
  · unfold nextSet
    rw [optionalOr_none, hn 37 (by decide), hn 36 (by decide)]
    rfl
  · unfold containsPrevious
    rw [contains_is hd (by decide), contains_is hd (by decide)]
    cases (m 32).isSome <;> rfl
  · unfold containsNext
    rw [contains_is hd (by decide), contains_is hd (by decide)]
    cases (m 36).isSome <;> rfl

/-- **C72, lists of parameters.** `set_mandatory_params` and `set_critical_params` store exactly the given set of numbers, whatever their order and however
often they are repeated; an empty list is refused. -/
theorem C72_lists {acc : Cell → Bool} (hacc : AcceptsTame acc) {l : List Nat} (hl : ∀ i ∈ l, i < 2 ^ 32) :
    (l ≠ [] → SetsTo acc (setMandatory acc) (p9 acc) l (fun r => NumbersAre acc r l) ∧ SetsTo acc (setCritical acc) (p10 acc) l (fun r => NumbersAre acc r l)) ∧
    (∀ d, setMandatory acc d [] = (.error .invalidData, d) ∧ setCritical acc d [] = (.error .invalidData, d)) := by
  refine ⟨fun hne => ?_, fun d => ⟨rfl, rfl⟩⟩
  have key : ∀ i, i < 2 ^ 32 → SetsTo acc (fun d l => setBuilt numbers acc (nonEmpty acc i 32) d (l.map fun i => (i, ()))) (nonEmpty acc i 32) l (fun r => NumbersAre acc r l) := by
    intro i hi d m hd
    have h := built_inPlace (T := numbers) numbers_key unit_codes (B := 0) (by decide) (fun v _ => unit_small v trivial) hacc (l := l.map fun i => (i, ()))
      (fun e he => by
        obtain ⟨i, hi, rfl⟩ := List.mem_map.1 he
        exact ⟨hl i hi, trivial⟩) (fun h => hne (List.map_eq_nil_iff.1 h)) hi
    refine setsTo_mono h (fun r hr => ?_) d m hd
    have e : firstOf (l.map fun i => (i, ())).reverse = fun i => if i ∈ l then some () else none := by
      funext x
      rw [← List.map_reverse, firstOf_map]
      simp only [List.mem_reverse]
    rw [e] at hr
    exact hr
  exact ⟨key 9 (by decide), key 10 (by decide)⟩

/-- **C72, fundamental addresses** are stored as exactly the given set; it may be empty. -/
theorem C72_fundamental {acc : Cell → Bool} (hacc : AcceptsTame acc) {l : List (List Byte)} (hl : ∀ a ∈ l, a.length = 32) :
    SetsTo acc (setFundamental acc) p31 l (fun r => AddressesAre acc r l) := by
  intro d m hd
  obtain ⟨r, e, hr⟩ := setEach_ok (T := addresses) addresses_key unit_codes (B := 0) (by decide) (fun v _ => unit_small v trivial) hacc (l.map fun a => (a, ()))
    (C57_empty acc) (fun e he => by
      obtain ⟨i, hi, rfl⟩ := List.mem_map.1 he
      exact ⟨hl i hi, trivial⟩)
  have e2 : (fun k => (firstOf (l.map fun a => (a, ())).reverse k).or none) = fun a => if a ∈ l then some () else none := by
    funext x
    rw [← List.map_reverse, firstOf_map]
    simp only [List.mem_reverse]
    by_cases h : x ∈ l
    · rw [if_pos h]; rfl
    · rw [if_neg h]; rfl
  rw [e2] at hr
  have hrun : setFundamental acc d l = set acc p31 d r := by
    unfold setFundamental setBuilt
    rw [e]
  rw [hrun]
  rcases plain_faithful Tlb.dict_sound (i := 31) (by decide) acc r (Tlb.dict_ok r) d m hd with ⟨d', e, ⟨x, rfl, hg⟩, c⟩ | h
  · exact Or.inl ⟨d', e, ⟨x, hr, hg⟩, c⟩
  · exact Or.inr h

/-- **C72, storage prices** are stored in the order of the list; an empty list is refused. -/
theorem C72_prices {acc : Cell → Bool} (hacc : AcceptsTame acc) {l : List StoragePrices} (hl : ∀ v ∈ l, storagePrices.ok v) (hn : l.length ≤ 2 ^ 32) :
    (l ≠ [] → SetsTo acc (setStoragePrices acc) (p18 acc) l (fun r => PricesAre acc r l)) ∧ ∀ d, setStoragePrices acc d [] = (.error .invalidData, d) := by
  refine ⟨fun hne d m hd => ?_, fun d => rfl⟩
  have e1 : (l.zipIdx.map fun q => (q.2 % 2 ^ 32, q.1)) = l.zipIdx.map fun q => (q.2, q.1) := by
    refine List.map_congr_left fun q hq => ?_
    obtain ⟨v, i⟩ := q
    have := List.mem_zipIdx hq
    rw [Nat.mod_eq_of_lt (show i < 2 ^ 32 by omega)]
  have hpos : ∀ e ∈ l.zipIdx.map (fun q => (q.2, q.1)), e.1 < 2 ^ 32 ∧ storagePrices.ok e.2 := by
    intro e he
    obtain ⟨⟨v, i⟩, hq, rfl⟩ := List.mem_map.1 he
    obtain ⟨_, h2, h3⟩ := List.mem_zipIdx hq
    refine ⟨by show i < 2 ^ 32; omega, hl v ?_⟩
    rw [h3]
    exact List.getElem_mem _
  have h := built_inPlace (T := prices) prices_key prices_codes (B := 296) (by decide) prices_small hacc (l := l.zipIdx.map fun q => (q.2, q.1)) hpos
    (fun h => hne (by rw [List.map_eq_nil_iff] at h; simpa using h)) (i := 18) (by decide)
  have hnd : ((l.zipIdx.map fun q => (q.2, q.1)).map Prod.fst).Nodup := by
    rw [List.map_map]
    show (l.zipIdx.map Prod.snd).Nodup
    rw [List.zipIdx_map_snd]
    exact List.nodup_range'
  have e2 : firstOf (l.zipIdx.map fun q => (q.2, q.1)).reverse = fun i => l[i]? := by
    rw [firstOf_reverse hnd]
    funext x
    rw [firstOf_index l 0 x, if_pos (Nat.zero_le _)]
    rfl
  rw [e2] at h
  have hrun : setStoragePrices acc d l = setBuilt prices acc (nonEmpty acc 18 32) d (l.zipIdx.map fun q => (q.2, q.1)) := by
    unfold setStoragePrices
    rw [e1]
    rfl
  rw [hrun]
  exact h d m hd

/-- **C72, new configurations** have the parameter 0 with the address, and nothing else. -/
theorem C72_new {acc : Cell → Bool} (hacc : AcceptsTame acc) {a : List Byte} (ha : a.length = 32) :
    ∃ d, newEmpty acc a = .ok ⟨a, d⟩ ∧ Is acc d (put (fun _ => none) 0 (some (Tlb.cellOf (Tlb.hash.enc a)))) ∧ get p0 d = .ok (some a) := by
  have hf : (Tlb.hash.enc a).Fits := ⟨by show (bytesToBits a).length ≤ 1023; rw [bytesToBits_length, ha]; decide, Nat.zero_le _⟩
  have ht : Tame 1023 (Tlb.cellOf (Tlb.hash.enc a)) := ⟨rfl, hf.1, Nat.zero_le _, fun r hr => (by cases hr)⟩
  have ht' : Tame 1024 (Tlb.cellOf (Tlb.hash.enc a)) := ⟨rfl, hf.1, Nat.zero_le _, fun r hr => (by cases hr)⟩
  obtain ⟨d, e, hd⟩ := step_set (T := params) Key.u32_codes (by decide) ref_codes (fun c _ => ref_fits c) (C57_empty acc) (k := 0) (by decide) (v := Tlb.cellOf (Tlb.hash.enc a)) trivial
    (single hacc ht (by decide))
  have hd : Is acc d (put (fun _ => none) 0 (some (Tlb.cellOf (Tlb.hash.enc a)))) := any_of_canonical ref_codes hd
  have hst : (p0.store a).toSl >>= buildSl acc = .ok (Tlb.cellOf (Tlb.hash.enc a)) := by
    show (Tlb.hash.store a).toSl >>= buildSl acc = _
    rw [Tlb.hash_sound.stored ha, if_pos hf]
    exact if_pos (hacc _ ht')
  refine ⟨d, ?_, hd, ?_⟩
  · unfold newEmpty set
    rw [hst]
    dsimp only
    rw [show setRaw acc none p0.id (Tlb.cellOf (Tlb.hash.enc a)) = (.ok true, d) from e]
  · exact ((C72_get hd Tlb.hash_sound (i := 0) (by decide)).2.1 a).2 ⟨_, if_pos rfl, starts_cellOf Tlb.hash_sound ha hf⟩

/-! ### Examples -/

/-- What a history leaves of some parameters. -/
def exSeen (d : Option Cell) : List (Option (Option Int)) × Option Nat × Option (List Byte) :=
  ([(get p19 d).toOption], ((required (gasParam false) d).toOption.map GasPrices.gasPrice), (minterAddress d).toOption)

def exConfigAddress : List Byte := List.replicate 32 5

/-- Non-vacuity: a new configuration is changed, and what is read from it. -/
example : (newEmpty (fun _ => true) exConfigAddress).toOption.map (fun c => exSeen (runAll (fun _ => true) c.params
      [.set _ Tlb.i32 19 (-239), .remove 0, .set _ Tlb.hash 1 (List.replicate 32 7), .remove 1]).2) =
    some ([some (some (-239))], none, some exConfigAddress) := by decide +kernel

/-- Non-vacuity of C72_lists: the set of mandatory parameters. -/
example : ((setMandatory (fun _ => true) none [0, 9, 0, 34]).1.toOption, ((get (p9 fun _ => true) (setMandatory (fun _ => true) none [0, 9, 0, 34]).2).toOption.map
      (·.map fun r => [0, 1, 9, 34].map fun i => (numbers.contains r i).toOption))) =
    (some true, some (some [some true, some false, some true, some true])) := by decide +kernel

end Config
end Verif
