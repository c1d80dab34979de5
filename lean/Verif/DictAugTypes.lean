import Verif.DictAugProps
import Verif.CurrencyMore
/-
The extra types of augmented dictionaries: `CurrencyCollection`, `ShardFeeCreated`, `ImportFees`, `DepthBalanceInfo`, `KeyMaxLt`.
-/
set_option linter.unusedVariables false
set_option linter.unusedSimpArgs false
namespace Verif

/-! ### Model -/

/-- What a store writes into an empty builder. -/
def Wr.toSl (w : Wr Cell Unit) : Except Err Sl :=
  match w .new with
  | (.ok _, b) => .ok ⟨b.inner.bits, b.refs⟩
  | (.error e, _) => .error e

/-- All implementations of `AugDictExtra` in the crate have this form: load both values, combine them and store the result
(`models/currency.rs:141-152`, `models/block/block_extra.rs:378-393`, `models/message/in_message.rs:20-41`,
`models/shard/shard_accounts.rs:29-44`, `models/shard/shard_extra.rs:263-278`). Values for which the store fails are not passed to `store` (see `valid`). -/
def AugType.of {A : Type} (store : A → Wr Cell Unit) (load : Rd Cell A) (add : A → A → Except Err A) (dflt : A) : AugType A where
  compAdd l r := (load l.reader).1 >>= fun x => (load r.reader).1 >>= fun y => add x y >>= fun z => (store z).toSl
  load s := (load s.reader).1
  store a := ((store a).toSl.toOption).getD .empty
  dflt := dflt

/-- `checked_add(..).ok_or(Error::IntOverflow)` on tokens. -/
def addTokens (a b : Nat) : Except Err Nat :=
  match VarKind.tokens.kind.checkedAdd a b with
  | some c => .ok c
  | none => .error .intOverflow

/-- `CurrencyCollection` as an extra. `acc` is the context of the additions (`Cell::empty_context`). -/
def currencyAug (acc : Cell → Bool) : AugType Currency := .of Currency.store Currency.load (Currency.checkedAdd acc) Currency.zero

/-- `ShardFeeCreated` (`block_extra.rs:368-376`): fees and created funds. -/
def shardFeeAug (acc : Cell → Bool) : AugType (Currency × Currency) :=
  .of (pairStore Currency.store Currency.store) (pairLoad Currency.load Currency.load)
    (fun a b => Currency.checkedAdd acc a.1 b.1 >>= fun x => Currency.checkedAdd acc a.2 b.2 >>= fun y => .ok (x, y)) (Currency.zero, Currency.zero)

/-- `ImportFees` (`in_message.rs:11-18`): collected fees and imported value. -/
def importFeesAug (acc : Cell → Bool) : AugType (Nat × Currency) :=
  .of (pairStore VarKind.tokens.store Currency.store) (pairLoad VarKind.tokens.load Currency.load)
    (fun a b => addTokens a.1 b.1 >>= fun x => Currency.checkedAdd acc a.2 b.2 >>= fun y => .ok (x, y)) (0, Currency.zero)

/-- `DepthBalanceInfo` (`shard_accounts.rs:12-72`): a depth of at most 30 in 5 bits and a balance. -/
def depthBalanceAug (acc : Cell → Bool) : AugType (Nat × Currency) :=
  .of (fun a => do
      Prog.check (decide (a.1 ≤ 30)) .intOverflow
      pairStore (fun v => Wr.small v 5) Currency.store a)
    (do
      let a ← pairLoad (Rd.small 5) Currency.load
      Prog.check (decide (a.1 ≤ 30)) .intOverflow
      pure a)
    (fun a b => Currency.checkedAdd acc a.2 b.2 >>= fun y => .ok (max a.1 b.1, y)) (0, Currency.zero)

/-- `KeyMaxLt` (`shard_extra.rs:254-278`): whether there is a key block, and the greatest logical time. -/
def keyMaxLtAug : AugType (Bool × Nat) :=
  .of (pairStore Wr.bit Wr.u64) (pairLoad Rd.bit Rd.u64) (fun a b => .ok (a.1 || b.1, max a.2 b.2)) (false, 0)

/-! ### Lawful types from codecs -/

theorem Wr.toSl_ok {w : Wr Cell Unit} {e : Enc Cell} (h : Writes w e) (hf : e.Fits) : w.toSl = .ok ⟨e.1, e.2⟩ := by
  have hnew : (CellB.new : CellB Cell).contents = Enc.nil := rfl
  obtain ⟨b', e1, _, c, _⟩ := (h CellB.new CellB.wf_new).1 (by rw [hnew]; exact hf)
  unfold Wr.toSl
  rw [e1]
  rw [hnew, Enc.nil_append] at c
  rw [← c]
  rfl

theorem AugType.of_lawful {A : Type} {store : A → Wr Cell Unit} {load : Rd Cell A} {add : A → A → Except Err A} {dflt : A} {ok : A → Prop} {R : A → Enc Cell → Prop}
    {enc : A → Enc Cell} (h : Codes ok store load R enc) (hf : ∀ a, ok a → (enc a).Fits) {valid : A → Prop} (hv : ∀ a, valid a → ok a)
    (hc : ∀ a b c, valid a → valid b → add a b = .ok c → valid c) : (AugType.of store load add dflt).Lawful valid (fun a b => (add a b).toOption) := by
  have hst : ∀ a, ok a → (AugType.of store load add dflt).store a = ⟨(enc a).1, (enc a).2⟩ := by
    intro a ha
    show ((store a).toSl.toOption).getD .empty = _
    rw [Wr.toSl_ok (h.writes a ha) (hf a ha)]
    rfl
  have hld : ∀ a, valid a → ∀ v, (((AugType.of store load add dflt).store a).then v).Small → (load (((AugType.of store load add dflt).store a).then v).reader).1 = .ok a := by
    intro a ha v hs
    rw [hst a (hv a ha)] at hs ⊢
    obtain ⟨w, c⟩ := Sl.reader_spec hs.1 hs.2
    obtain ⟨s', e1, _⟩ := h.reads a (enc a) (h.canon a (hv a ha)) _ (v.bits, v.refs) w c
    rw [e1]
  refine ⟨hld, fun a b ha hb v w hs hs' => ?_, fun a b c ha hb hab => ?_⟩
  · have e1 := hld a ha v hs
    have e2 := hld b hb w hs'
    have hrun : (AugType.of store load add dflt).compAdd (((AugType.of store load add dflt).store a).then v) (((AugType.of store load add dflt).store b).then w) =
        (add a b >>= fun z => (store z).toSl) := by
      show ((load _).1 >>= fun x => (load _).1 >>= fun y => add x y >>= fun z => (store z).toSl) = _
      rw [e1, e2]
      rfl
    rw [hrun]
    cases hab : add a b with
    | error e => exact ⟨e, rfl⟩
    | ok c =>
      have hvc := hv c (hc a b c ha hb hab)
      show (store c).toSl = .ok _
      rw [Wr.toSl_ok (h.writes c hvc) (hf c hvc), hst c hvc]
  · cases hx : add a b with
    | error e => rw [hx] at hab; cases hab
    | ok z =>
      rw [hx] at hab
      injection hab with hab
      exact hc a b c ha hb (hab ▸ hx)

/-- Values that pass a test made after loading and before storing. -/
theorem Codes.filter {ρ α : Type} {ok : α → Prop} {store : α → Wr ρ Unit} {load : Rd ρ α} {R : α → Enc ρ → Prop} {enc : α → Enc ρ}
    (h : Codes ok store load R enc) (p : α → Bool) {x : Err} (hx1 : x ≠ .fault) (hx2 : x ≠ .panic) :
    Codes (fun v => ok v ∧ p v = true) (fun v => do Prog.check (p v) x; store v) (do let v ← load; Prog.check (p v) x; pure v)
      (fun v e => R v e ∧ p v = true) enc where
  writes v hv := by
    rw [hv.2]
    exact h.writes v hv.1
  canon v hv := ⟨h.canon v hv.1, hv.2⟩
  valid v e hv := ⟨h.valid v e hv.1, hv.2⟩
  reads := by
    intro v e hv
    rw [← Enc.append_nil e]
    refine (h.reads v e hv.1).bind ?_
    rw [hv.2]
    exact Reads.pure v
  exact := by
    refine Exact.bind (R3 := fun a b e => b = a ∧ p a = true ∧ e = Enc.nil) h.exact (fun a => ?_) ?_
    · refine Exact.bind (R3 := fun _ b e => b = a ∧ e = Enc.nil) (Exact.check (p a) x) (fun _ => Exact.pure _ ⟨rfl, rfl⟩) ?_
      rintro _ b e1 e2 ⟨h1, rfl⟩ ⟨rfl, rfl⟩
      exact ⟨rfl, h1, rfl⟩
    · rintro a b e1 e2 h1 ⟨rfl, h2, rfl⟩
      exact ⟨by rwa [Enc.append_nil], h2⟩
  safe := Safe.bind h.safe fun v => Safe.bind (Safe.check _ hx1 hx2) fun _ => Safe.pure _

theorem ebind_some {α β : Type} {x : Except Err α} {f : α → Except Err β} {b : β} (h : (x >>= f) = .ok b) : ∃ a, x = .ok a ∧ f a = .ok b := by
  cases x with
  | error e => cases h
  | ok a => exact ⟨a, rfl, h⟩

/-! ### Specification: what the extras add up to -/

/-- The amount of a currency that `get` finds; none is zero. -/
def Currency.other' (a : Currency) (id : Nat) : Nat :=
  match coins.get a.other id with
  | .ok (some v) => v.val
  | _ => 0

/-- Valid collections: the tokens in range and a proper dictionary. -/
def Currency.Valid (acc : Cell → Bool) (a : Currency) : Prop := a.Ok ∧ ∃ m, Coins acc a.other m

/-- A history of operations on an augmented dictionary that starts empty: the results fit the map `m` and `x` is the extra at the end. -/
def AugDict.Reaches {A : Type} (T : AugType A) (acc : Cell → Bool) (n : Nat) (ops : List (AOp A)) (m : AMap A) (x : A) : Prop :=
  AExplains T acc n (fun _ => none) ops ((AugDict.new T).runs T acc n ops).1 m ∧ ((AugDict.new T).runs T acc n ops).2.extra = x

/-! ### Lemmas -/

theorem tokens_enc_small {v : Nat} (h : v ≤ VarKind.tokens.max) : (VarKind.tokens.enc v : Enc Cell).1.length ≤ 124 ∧ (VarKind.tokens.enc v : Enc Cell).2.length = 0 := by
  have hm := VarKind.tokens.max_eq
  have hb : VarKind.tokens.bytes v ≤ 15 := (VarKind.tokens.leastBytes h).2 15 (by
    have : VarKind.tokens.maxBytes = 15 := rfl
    rw [this] at hm
    have : 0 < 2 ^ (8 * 15) := Nat.two_pow_pos _
    omega)
  refine ⟨?_, rfl⟩
  unfold VarKind.enc varEnc
  show (natBits VarKind.tokens.lenBits _ ++ natBits _ _).length ≤ 124
  rw [List.length_append, natBits_length, natBits_length]
  have : VarKind.tokens.lenBits = 4 := rfl
  omega

theorem currency_enc_small {a : Currency} (h : a.Ok) : (Currency.enc a).1.length ≤ 125 ∧ (Currency.enc a).2.length ≤ 1 := by
  obtain ⟨h1, h2⟩ := tokens_enc_small h
  unfold Currency.enc
  rw [Enc.append_fst, Enc.append_snd, List.length_append, List.length_append, h2]
  cases a.other with
  | none =>
    constructor
    · show _ + 1 ≤ _; omega
    · show 0 + 0 ≤ _; omega
  | some c =>
    constructor
    · show _ + 1 ≤ _; omega
    · show 0 + 1 ≤ _; omega

theorem coins_other' {acc : Cell → Bool} {a : Currency} {m : Nat → Option Nat} (h : Coins acc a.other m) {id : Nat} (hid : okId id) :
    a.other' id = amount m id := by
  obtain ⟨o, h1, h2, _⟩ := (bank_any acc).get a.other m id h hid
  unfold Currency.other'
  rw [h1]
  unfold amount
  rw [← h2]
  cases o <;> rfl

/-- Addition of valid collections adds the tokens and every amount. -/
theorem currency_add {acc : Cell → Bool} {a b c : Currency} (ha : a.Valid acc) (hb : b.Valid acc) (h : a.checkedAdd acc b = .ok c) :
    c.Valid acc ∧ c.tokens = a.tokens + b.tokens ∧ ∀ id, okId id → c.other' id = a.other' id + b.other' id := by
  obtain ⟨_, ma, hma⟩ := ha
  obtain ⟨_, mb, hmb⟩ := hb
  obtain ⟨_, h2, h3, h4⟩ := (C45_any acc hma hmb).1 c h
  refine ⟨⟨h3, _, h4⟩, h2, fun id hid => ?_⟩
  rw [coins_other' h4 hid, coins_other' hma hid, coins_other' hmb hid]
  exact (C45_amounts ma mb id).1

/-- A property of the combination, for values that respect it. -/
theorem total_hom {A B : Type} {valid : A → Prop} {comb : A → A → Option A} (hvc : ∀ a b c, valid a → valid b → comb a b = some c → valid c) {op : B → B → B}
    (assoc : ∀ a b c, op (op a b) c = op a (op b c)) {g : A → B} (hop : ∀ a b c, valid a → valid b → comb a b = some c → g c = op (g a) (g b))
    {n : Nat} {m : AMap A} (hv : ∀ k p, k.length = n → m k = some p → valid p.1) {p : Bits} {a : A} (h : Total comb n m p a) :
    p.length ≤ n ∧ valid a ∧ fold1 op ((m.extras p (n - p.length)).map g) = some (g a) := by
  have hsplit : ∀ p : Bits, p.length + 1 ≤ n → m.extras p (n - p.length) = m.extras (p ++ [false]) (n - (p.length + 1)) ++ m.extras (p ++ [true]) (n - (p.length + 1)) := by
    intro p hp
    have e : n - p.length = (n - (p.length + 1)) + 1 := by omega
    rw [e]
    unfold AMap.extras
    rw [keysUnder, List.filterMap_append]
  induction h with
  | key hk hm =>
    refine ⟨Nat.le_of_eq hk, hv _ _ hk hm, ?_⟩
    rw [hk, Nat.sub_self]
    unfold AMap.extras keysUnder
    simp [hm, fold1]
  | @one p a bit hnone _ ih =>
    obtain ⟨h1, hva, h2⟩ := ih
    simp only [List.length_append, List.length_singleton] at h1 h2
    refine ⟨by omega, hva, ?_⟩
    have hno := extras_none (m := m) (p := p ++ [!bit]) (d := n - (p.length + 1)) (n := n) (by simp; omega) hnone
    rw [hsplit p h1]
    cases bit
    · rw [show ([true] : Bits) = [!false] from rfl, hno, List.append_nil]; exact h2
    · rw [show ([false] : Bits) = [!true] from rfl, hno, List.nil_append]; exact h2
  | @both p a b c _ _ hc ih1 ih2 =>
    obtain ⟨h1, hva, h2⟩ := ih1
    obtain ⟨_, hvb, h3⟩ := ih2
    simp only [List.length_append, List.length_singleton] at h1 h2 h3
    refine ⟨by omega, hvc a b c hva hvb hc, ?_⟩
    rw [hsplit p h1, List.map_append, hop a b c hva hvb hc]
    exact fold1_append assoc h2 h3

theorem fold1_getD {B : Type} {op : B → B → B} {e : B} (he : ∀ b, op e b = b) : ∀ l : List B, (fold1 op l).getD e = l.foldl op e
  | [] => rfl
  | b :: l => by
    show l.foldl op b = l.foldl op (op e b)
    rw [he]

/-- The extra of a dictionary through a homomorphism to a monoid. -/
theorem extra_hom {A B : Type} {T : AugType A} {valid : A → Prop} {comb : A → A → Option A} (law : T.Lawful valid comb) {op : B → B → B}
    (assoc : ∀ a b c, op (op a b) c = op a (op b c)) {g : A → B} (hop : ∀ a b c, valid a → valid b → comb a b = some c → g c = op (g a) (g b))
    (he : ∀ b, op (g T.dflt) b = b) {acc : Cell → Bool} {n : Nat} {s : AugDict A} {m : AMap A} (h : AugDict.Is T valid comb acc n s m) :
    g s.extra = ((m.extras [] n).map g).foldl op (g T.dflt) := by
  by_cases hk : ∃ k, k.length = n ∧ (m k).isSome
  · obtain ⟨_, _, this⟩ := total_hom law.valid assoc hop h.valid (h.extra hk)
    rw [show n - ([] : Bits).length = n from rfl] at this
    rw [← fold1_getD he, this]; rfl
  · have hnone : ∀ k, k.length = n → m k = none := by
      intro k hkn
      cases hm : m k with
      | none => rfl
      | some p => exact absurd ⟨k, hkn, by rw [hm]; rfl⟩ hk
    rw [h.empty hnone, extras_none (by simp) (fun k hkn _ => hnone k hkn)]
    rfl

theorem foldl_sum (l : List Nat) : l.foldl (· + ·) 0 = l.sum := by
  rw [List.sum_eq_foldl]

theorem extra_sum {A : Type} {T : AugType A} {valid : A → Prop} {comb : A → A → Option A} (law : T.Lawful valid comb) {g : A → Nat}
    (hop : ∀ a b c, valid a → valid b → comb a b = some c → g c = g a + g b) (hd : g T.dflt = 0)
    {acc : Cell → Bool} {n : Nat} {s : AugDict A} {m : AMap A} (h : AugDict.Is T valid comb acc n s m) : g s.extra = ((m.extras [] n).map g).sum := by
  have := extra_hom law (op := (· + ·)) Nat.add_assoc hop (fun b => by rw [hd, Nat.zero_add]) h
  rw [this, hd, foldl_sum]

theorem coins_none (acc : Cell → Bool) : Coins acc none (fun _ => none) :=
  ⟨fun _ => none, ⟨fun _ => none, fun _ _ => rfl, fun _ _ _ h => (by cases h), fun _ _ => trivial⟩, fun _ _ => rfl⟩

theorem currency_zero (acc : Cell → Bool) : Currency.zero.Valid acc ∧ Currency.zero.tokens = 0 ∧ ∀ id, okId id → Currency.zero.other' id = 0 := by
  refine ⟨⟨Nat.zero_le _, _, coins_none acc⟩, rfl, fun id hid => ?_⟩
  rw [coins_other' (coins_none acc) hid]
  rfl

/-! ## C33 for the extra types of the crate -/

theorem currencyAug_lawful (acc : Cell → Bool) : (currencyAug acc).Lawful (Currency.Valid acc) (fun a b => (a.checkedAdd acc b).toOption) :=
  AugType.of_lawful C45_codes (fun a ha => ⟨by have := (currency_enc_small ha).1; omega, by have := (currency_enc_small ha).2; omega⟩) (fun a h => h.1)
    (fun a b c ha hb h => (currency_add ha hb h).1)

theorem toOption_some {α : Type} {x : Except Err α} {c : α} (h : x.toOption = some c) : x = .ok c := by
  cases x with
  | error e => cases h
  | ok v => injection h with h; rw [h]

/-- Dictionaries with `CurrencyCollection` extras (for example account blocks): after any history the root extra has the sum of the tokens and of every
other currency over all entries. -/
theorem C33_currency (acc acc' : Cell → Bool) {n : Nat} {s : AugDict Currency} {m : AMap Currency}
    (h : AugDict.Is (currencyAug acc) (Currency.Valid acc) (fun a b => (a.checkedAdd acc b).toOption) acc' n s m) :
    s.extra.tokens = ((m.extras [] n).map Currency.tokens).sum ∧
    ∀ id, okId id → s.extra.other' id = ((m.extras [] n).map fun a => a.other' id).sum := by
  refine ⟨extra_sum (currencyAug_lawful acc) (fun a b c ha hb h => (currency_add ha hb (toOption_some h)).2.1) rfl h, fun id hid => ?_⟩
  exact extra_sum (currencyAug_lawful acc) (g := fun a => a.other' id) (fun a b c ha hb h => (currency_add ha hb (toOption_some h)).2.2 id hid)
    ((currency_zero acc).2.2 id hid) h

/-- From the empty dictionary, in full. -/
theorem C33_currency_history (acc acc' : Cell → Bool) {n : Nat} (hn : n ≤ 1023) (ops : List (AOp Currency)) (hv : ∀ op ∈ ops, op.Valid (Currency.Valid acc)) :
    ∃ m x, AugDict.Reaches (currencyAug acc) acc' n ops m x ∧ x.tokens = ((m.extras [] n).map Currency.tokens).sum ∧
      ∀ id, okId id → x.other' id = ((m.extras [] n).map fun a => a.other' id).sum := by
  obtain ⟨m, h1, h2⟩ := C33_history (currencyAug_lawful acc) acc' hn ops hv (C33_new _ _ _ acc' n)
  obtain ⟨g1, g2⟩ := C33_currency acc acc' h2
  exact ⟨m, _, ⟨h1, rfl⟩, g1, g2⟩

theorem shardFeeAug_lawful (acc : Cell → Bool) : (shardFeeAug acc).Lawful (fun a => a.1.Valid acc ∧ a.2.Valid acc)
    (fun a b => (Currency.checkedAdd acc a.1 b.1 >>= fun x => Currency.checkedAdd acc a.2 b.2 >>= fun y => Except.ok (x, y)).toOption) := by
  refine AugType.of_lawful (Codes.pair C45_codes C45_codes) (fun a ha => ?_) (fun a h => ⟨h.1.1, h.2.1⟩) (fun a b c ha hb h => ?_)
  · have h1 := currency_enc_small ha.1
    have h2 := currency_enc_small ha.2
    unfold Enc.Fits
    rw [Enc.append_fst, Enc.append_snd, List.length_append, List.length_append]
    omega
  · obtain ⟨x, h1, h⟩ := ebind_some h
    obtain ⟨y, h2, h⟩ := ebind_some h
    injection h with h
    subst h
    exact ⟨(currency_add ha.1 hb.1 h1).1, (currency_add ha.2 hb.2 h2).1⟩

/-- Shard fees: fees and created funds are summed separately. -/
theorem C33_shard_fees (acc acc' : Cell → Bool) {n : Nat} {s : AugDict (Currency × Currency)} {m : AMap (Currency × Currency)}
    (h : AugDict.Is (shardFeeAug acc) (fun a => a.1.Valid acc ∧ a.2.Valid acc)
      (fun a b => (Currency.checkedAdd acc a.1 b.1 >>= fun x => Currency.checkedAdd acc a.2 b.2 >>= fun y => Except.ok (x, y)).toOption) acc' n s m) :
    s.extra.1.tokens = ((m.extras [] n).map fun a => a.1.tokens).sum ∧ s.extra.2.tokens = ((m.extras [] n).map fun a => a.2.tokens).sum ∧
    ∀ id, okId id → s.extra.1.other' id = ((m.extras [] n).map fun a => a.1.other' id).sum ∧
      s.extra.2.other' id = ((m.extras [] n).map fun a => a.2.other' id).sum := by
  have inv : ∀ a b c : Currency × Currency, (Currency.checkedAdd acc a.1 b.1 >>= fun x => Currency.checkedAdd acc a.2 b.2 >>= fun y => Except.ok (x, y)).toOption = some c →
      a.1.checkedAdd acc b.1 = .ok c.1 ∧ a.2.checkedAdd acc b.2 = .ok c.2 := by
    intro a b c h
    obtain ⟨x, h1, h⟩ := ebind_some (toOption_some h)
    obtain ⟨y, h2, h⟩ := ebind_some h
    injection h with h
    subst h
    exact ⟨h1, h2⟩
  refine ⟨?_, ?_, fun id hid => ⟨?_, ?_⟩⟩
  · exact extra_sum (shardFeeAug_lawful acc) (g := fun a => a.1.tokens) (fun a b c ha hb h => (currency_add ha.1 hb.1 (inv a b c h).1).2.1) rfl h
  · exact extra_sum (shardFeeAug_lawful acc) (g := fun a => a.2.tokens) (fun a b c ha hb h => (currency_add ha.2 hb.2 (inv a b c h).2).2.1) rfl h
  · exact extra_sum (shardFeeAug_lawful acc) (g := fun a => a.1.other' id) (fun a b c ha hb h => (currency_add ha.1 hb.1 (inv a b c h).1).2.2 id hid)
      ((currency_zero acc).2.2 id hid) h
  · exact extra_sum (shardFeeAug_lawful acc) (g := fun a => a.2.other' id) (fun a b c ha hb h => (currency_add ha.2 hb.2 (inv a b c h).2).2.2 id hid)
      ((currency_zero acc).2.2 id hid) h

theorem addTokens_ok {a b c : Nat} (h : addTokens a b = .ok c) : c = a + b ∧ c ≤ VarKind.tokens.max := by
  unfold addTokens at h
  rw [tokens_add] at h
  by_cases hl : a + b ≤ VarKind.tokens.max
  · rw [if_pos hl] at h
    injection h with h
    exact ⟨h.symm, h ▸ hl⟩
  · rw [if_neg hl] at h
    cases h

theorem importFeesAug_lawful (acc : Cell → Bool) : (importFeesAug acc).Lawful (fun a => a.1 ≤ VarKind.tokens.max ∧ a.2.Valid acc)
    (fun a b => (addTokens a.1 b.1 >>= fun x => Currency.checkedAdd acc a.2 b.2 >>= fun y => Except.ok (x, y)).toOption) := by
  refine AugType.of_lawful (Codes.pair VarKind.tokens.codes C45_codes) (fun a ha => ?_) (fun a h => ⟨h.1, h.2.1⟩) (fun a b c ha hb h => ?_)
  · have h1 := tokens_enc_small ha.1
    have h2 := currency_enc_small ha.2
    unfold Enc.Fits
    rw [Enc.append_fst, Enc.append_snd, List.length_append, List.length_append]
    omega
  · obtain ⟨x, h1, h⟩ := ebind_some h
    obtain ⟨y, h2, h⟩ := ebind_some h
    injection h with h
    subst h
    exact ⟨(addTokens_ok h1).2, (currency_add ha.2 hb.2 h2).1⟩

/-- Inbound messages: collected fees and imported value are summed. -/
theorem C33_import_fees (acc acc' : Cell → Bool) {n : Nat} {s : AugDict (Nat × Currency)} {m : AMap (Nat × Currency)}
    (h : AugDict.Is (importFeesAug acc) (fun a => a.1 ≤ VarKind.tokens.max ∧ a.2.Valid acc)
      (fun a b => (addTokens a.1 b.1 >>= fun x => Currency.checkedAdd acc a.2 b.2 >>= fun y => Except.ok (x, y)).toOption) acc' n s m) :
    s.extra.1 = ((m.extras [] n).map Prod.fst).sum ∧ s.extra.2.tokens = ((m.extras [] n).map fun a => a.2.tokens).sum ∧
    ∀ id, okId id → s.extra.2.other' id = ((m.extras [] n).map fun a => a.2.other' id).sum := by
  have inv : ∀ a b c : Nat × Currency, (addTokens a.1 b.1 >>= fun x => Currency.checkedAdd acc a.2 b.2 >>= fun y => Except.ok (x, y)).toOption = some c →
      addTokens a.1 b.1 = .ok c.1 ∧ a.2.checkedAdd acc b.2 = .ok c.2 := by
    intro a b c h
    obtain ⟨x, h1, h⟩ := ebind_some (toOption_some h)
    obtain ⟨y, h2, h⟩ := ebind_some h
    injection h with h
    subst h
    exact ⟨h1, h2⟩
  refine ⟨?_, ?_, fun id hid => ?_⟩
  · exact extra_sum (importFeesAug_lawful acc) (g := Prod.fst) (fun a b c ha hb h => (addTokens_ok (inv a b c h).1).1) rfl h
  · exact extra_sum (importFeesAug_lawful acc) (g := fun a => a.2.tokens) (fun a b c ha hb h => (currency_add ha.2 hb.2 (inv a b c h).2).2.1) rfl h
  · exact extra_sum (importFeesAug_lawful acc) (g := fun a => a.2.other' id) (fun a b c ha hb h => (currency_add ha.2 hb.2 (inv a b c h).2).2.2 id hid)
      ((currency_zero acc).2.2 id hid) h

theorem depthBalanceAug_lawful (acc : Cell → Bool) : (depthBalanceAug acc).Lawful (fun a => a.1 ≤ 30 ∧ a.2.Valid acc)
    (fun a b => (Currency.checkedAdd acc a.2 b.2 >>= fun y => Except.ok (max a.1 b.1, y)).toOption) := by
  have hc := (Codes.pair (Codes.nat (Rd.takes_small (ρ := Cell) (n := 5) (by decide)) (w := fun v => Wr.small v 5) fun v h => (Wr.writes_small v (by decide)).writes) C45_codes).filter
    (fun a => decide (a.1 ≤ 30)) (x := .intOverflow) (by decide) (by decide)
  refine AugType.of_lawful hc (fun a ha => ?_) (fun a h => ⟨⟨Nat.lt_of_le_of_lt h.1 (by decide), h.2.1⟩, decide_eq_true h.1⟩) (fun a b c ha hb h => ?_)
  · have h2 := currency_enc_small ha.1.2
    unfold Enc.Fits
    rw [Enc.append_fst, Enc.append_snd, List.length_append, List.length_append]
    have h1 : (Enc.bits (natBits 5 a.1) : Enc Cell).1.length = 5 := natBits_length ..
    have h3 : (Enc.bits (natBits 5 a.1) : Enc Cell).2.length = 0 := rfl
    omega
  · obtain ⟨y, h2, h⟩ := ebind_some h
    injection h with h
    subst h
    exact ⟨Nat.max_le.mpr ⟨ha.1, hb.1⟩, (currency_add ha.2 hb.2 h2).1⟩

/-- Shard accounts: the balance at the root is the sum of all balances and the split depth the greatest. -/
theorem C33_depth_balance (acc acc' : Cell → Bool) {n : Nat} {s : AugDict (Nat × Currency)} {m : AMap (Nat × Currency)}
    (h : AugDict.Is (depthBalanceAug acc) (fun a => a.1 ≤ 30 ∧ a.2.Valid acc)
      (fun a b => (Currency.checkedAdd acc a.2 b.2 >>= fun y => Except.ok (max a.1 b.1, y)).toOption) acc' n s m) :
    s.extra.1 = ((m.extras [] n).map Prod.fst).foldl max 0 ∧ s.extra.2.tokens = ((m.extras [] n).map fun a => a.2.tokens).sum ∧
    ∀ id, okId id → s.extra.2.other' id = ((m.extras [] n).map fun a => a.2.other' id).sum := by
  have inv : ∀ a b c : Nat × Currency, (Currency.checkedAdd acc a.2 b.2 >>= fun y => Except.ok (max a.1 b.1, y)).toOption = some c →
      c.1 = max a.1 b.1 ∧ a.2.checkedAdd acc b.2 = .ok c.2 := by
    intro a b c h
    obtain ⟨y, h2, h⟩ := ebind_some (toOption_some h)
    injection h with h
    subst h
    exact ⟨rfl, h2⟩
  refine ⟨?_, ?_, fun id hid => ?_⟩
  · exact extra_hom (depthBalanceAug_lawful acc) (op := max) Nat.max_assoc (g := Prod.fst) (fun a b c ha hb h => (inv a b c h).1) (fun b => Nat.zero_max b) h
  · exact extra_sum (depthBalanceAug_lawful acc) (g := fun a => a.2.tokens) (fun a b c ha hb h => (currency_add ha.2 hb.2 (inv a b c h).2).2.1) rfl h
  · exact extra_sum (depthBalanceAug_lawful acc) (g := fun a => a.2.other' id) (fun a b c ha hb h => (currency_add ha.2 hb.2 (inv a b c h).2).2.2 id hid)
      ((currency_zero acc).2.2 id hid) h

theorem keyMaxLtAug_lawful : keyMaxLtAug.Lawful (fun a => a.2 < 2 ^ 64) (fun a b => some (a.1 || b.1, max a.2 b.2)) := by
  refine AugType.of_lawful (add := fun a b => .ok (a.1 || b.1, max a.2 b.2)) (Codes.pair Codes.bool Codes.u64) (fun a ha => ?_) (fun a h => ⟨trivial, h⟩) (fun a b c ha hb h => ?_)
  · unfold Enc.Fits
    rw [Enc.append_fst, Enc.append_snd, List.length_append, List.length_append]
    have h1 : (Enc.bits (natBits 64 a.2) : Enc Cell).1.length = 64 := natBits_length ..
    have h3 : (Enc.bits (natBits 64 a.2) : Enc Cell).2.length = 0 := rfl
    have h4 : (Enc.bits [a.1] : Enc Cell).1.length = 1 := rfl
    have h5 : (Enc.bits [a.1] : Enc Cell).2.length = 0 := rfl
    omega
  · injection h with h
    subst h
    exact Nat.max_lt.mpr ⟨ha, hb⟩

/-- Old masterchain blocks: whether there is a key block, and the greatest logical time. -/
theorem C33_key_max_lt (acc : Cell → Bool) {n : Nat} {s : AugDict (Bool × Nat)} {m : AMap (Bool × Nat)}
    (h : AugDict.Is keyMaxLtAug (fun a => a.2 < 2 ^ 64) (fun a b => some (a.1 || b.1, max a.2 b.2)) acc n s m) :
    s.extra.1 = (m.extras [] n).any Prod.fst ∧ s.extra.2 = ((m.extras [] n).map Prod.snd).foldl max 0 := by
  constructor
  · have := extra_hom keyMaxLtAug_lawful (op := or) Bool.or_assoc (g := Prod.fst) (fun a b c ha hb h => by injection h with h; rw [← h]) (fun b => rfl) h
    rw [this]
    show ((m.extras [] n).map Prod.fst).foldl or false = _
    generalize m.extras [] n = l
    suffices ∀ b, (l.map Prod.fst).foldl or b = (b || l.any Prod.fst) by rw [this false, Bool.false_or]
    induction l with
    | nil => intro b; simp
    | cons a l ih =>
      intro b
      show (l.map Prod.fst).foldl or (b || a.1) = _
      rw [ih, List.any_cons, Bool.or_assoc]
  · exact extra_hom keyMaxLtAug_lawful (op := max) Nat.max_assoc (g := Prod.snd) (fun a b c ha hb h => by injection h with h; rw [← h]) (fun b => Nat.zero_max b) h

/-! ### Non-vacuity -/

/-- Three entries, one of them removed again: 4-bit keys, extras of 5, 6 and 100 tokens. -/
def augSample : List (AOp Currency) :=
  [.insert .set [true, false, true, false] ⟨100, none⟩ ⟨[true], []⟩, .insert .add [false, false, true, true] sampleA ⟨[], []⟩,
   .insert .set [true, false, false, false] sampleB ⟨[false, true], []⟩, .insert .add [true, false, false, false] ⟨9, none⟩ ⟨[], []⟩,
   .remove [true, false, true, false]]

example : listed ((AugDict.new (currencyAug fun _ => true)).runs (currencyAug fun _ => true) (fun _ => true) 4 augSample).2.extra =
    (11, [some (1, 16), some (2, 1), some (3, 2 ^ 200)]) := by decide +kernel

/-- With the third entry. -/
example : listed ((AugDict.new (currencyAug fun _ => true)).runs (currencyAug fun _ => true) (fun _ => true) 4 (augSample.take 4)).2.extra =
    (111, [some (1, 16), some (2, 1), some (3, 2 ^ 200)]) := by decide +kernel

/-- An entry whose tokens make the sum too large is refused and nothing changes. -/
example :
    let s := ((AugDict.new (currencyAug fun _ => true)).runs (currencyAug fun _ => true) (fun _ => true) 4 augSample).2
    let r := s.insert (currencyAug fun _ => true) (fun _ => true) 4 .set [true, true, true, true] ⟨VarKind.tokens.max, none⟩ ⟨[], []⟩
    r.1.toOption.isNone = true ∧ (dictGet r.2.root 4 [true, true, true, true]).toOption.map Option.isNone = some true ∧ listed r.2.extra = listed s.extra := by decide +kernel

example : ((AugDict.new keyMaxLtAug).runs keyMaxLtAug (fun _ => true) 4
    [.insert .set [true, false, true, false] (false, 7) ⟨[], []⟩, .insert .set [true, false, true, true] (true, 5) ⟨[], []⟩]).2.extra = (true, 7) := by decide +kernel

end Verif
