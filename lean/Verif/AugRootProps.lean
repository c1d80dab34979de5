import Verif.AugRoot
import Verif.BlockProps
import Verif.DictAugTypes
import Verif.DictAugBulk
/-
C70: roots of augmented dictionaries in place, account blocks.
-/
set_option linter.unusedVariables false
set_option linter.unusedSimpArgs false
namespace Verif

/-! ### Lemmas -/

theorem Total.some_key {A : Type} {comb : A → A → Option A} {n : Nat} {m : AMap A} {p : Bits} {a : A} (h : Total comb n m p a) :
    ∃ k, k.length = n ∧ p <+: k ∧ m k ≠ none := by
  induction h with
  | key h1 h2 => exact ⟨_, h1, List.prefix_refl _, by rw [h2]; simp⟩
  | one bit h1 h2 ih =>
    obtain ⟨k, g1, g2, g3⟩ := ih
    exact ⟨k, g1, (List.prefix_append _ _).trans g2, g3⟩
  | both h1 h2 h3 ih1 ih2 =>
    obtain ⟨k, g1, g2, g3⟩ := ih1
    exact ⟨k, g1, (List.prefix_append _ _).trans g2, g3⟩

theorem Total.short {A : Type} {comb : A → A → Option A} {n : Nat} {m : AMap A} {p : Bits} {bit : Bool} {a : A} (h : Total comb n m (p ++ [bit]) a) : p.length ≠ n := by
  obtain ⟨k, h1, h2, _⟩ := h.some_key
  have := h2.length_le
  rw [List.length_append] at this
  have h3 : ([bit] : Bits).length = 1 := rfl
  omega

/-- The total is unique. -/
theorem Total.unique {A : Type} {comb : A → A → Option A} {n : Nat} {m : AMap A} {p : Bits} {a b : A} (h : Total comb n m p a) (h' : Total comb n m p b) : a = b := by
  induction h generalizing b with
  | key h1 h2 =>
    cases h' with
    | key g1 g2 => rw [h2] at g2; injection g2 with g2; injection g2
    | one bit g1 g2 => exact absurd h1 g2.short
    | both g1 g2 g3 => exact absurd h1 g1.short
  | @one p a bit h1 h2 ih =>
    cases h' with
    | key g1 g2 => exact absurd g1 h2.short
    | one bit' g1 g2 =>
      by_cases hb : bit' = bit
      · subst hb; exact ih g2
      · have hb' : bit' = !bit := by cases bit <;> cases bit' <;> simp_all
        subst hb'
        obtain ⟨k, k1, k2, k3⟩ := g2.some_key
        exact absurd (h1 k k1 k2) k3
    | both g1 g2 g3 =>
      exfalso
      cases bit with
      | false =>
        obtain ⟨k, k1, k2, k3⟩ := g2.some_key
        exact k3 (h1 k k1 k2)
      | true =>
        obtain ⟨k, k1, k2, k3⟩ := g1.some_key
        exact k3 (h1 k k1 k2)
  | @both p a b c h1 h2 h3 ih1 ih2 =>
    cases h' with
    | key g1 g2 => exact absurd g1 h1.short
    | one bit g1 g2 =>
      exfalso
      cases bit with
      | false =>
        obtain ⟨k, k1, k2, k3⟩ := h2.some_key
        exact k3 (g1 k k1 k2)
      | true =>
        obtain ⟨k, k1, k2, k3⟩ := h1.some_key
        exact k3 (g1 k k1 k2)
    | both g1 g2 g3 =>
      rw [ih1 g1, ih2 g2, g3] at h3
      injection h3 with h3
      exact h3.symm

/-- The root of an augmented dictionary: the label; then the extra and the value of the only entry, or the extra of the whole dictionary behind the two branches. -/
theorem aug_root_shape {A : Type} {T : AugType A} {valid : A → Prop} {comb : A → A → Option A} (law : T.Lawful valid comb) {acc : Cell → Bool} {n : Nat}
    {c : Cell} {x : A} {m : AMap A} (h : AugDict.Is T valid comb acc n ⟨some c, x⟩ m) : valid x ∧ okCell acc c ∧ ∃ l : Bits, l.length ≤ n ∧
    ((l.length = n ∧ ∃ v, m l = some (x, v) ∧ c = .mk false (labelBits l n ++ ((T.store x).then v).bits) ((T.store x).then v).refs) ∨
     (l.length < n ∧ ∃ a b, c = .mk false (labelBits l n ++ (T.store x).bits) (a :: b :: (T.store x).refs))) := by
  obtain ⟨t, hs, hc, hg, hcell, hm⟩ := h.tree
  have hkey : ∃ k, k.length = n ∧ (m k).isSome := by
    obtain ⟨k, w, hk, hw⟩ := Trie.exists_key hs
    have := hm k hk
    unfold AMap.stored at this
    rw [hw] at this
    refine ⟨k, hk, ?_⟩
    cases hmk : m k with
    | none => rw [hmk] at this; cases this
    | some p => rfl
  have htot := h.extra hkey
  dsimp only at htot hcell
  subst hcell
  cases t with
  | leaf l e v =>
    have h1 := hm l hs.1
    rw [Trie.lookup_leaf, if_pos rfl] at h1
    unfold AMap.stored at h1
    cases hml : m l with
    | none => rw [hml] at h1; cases h1
    | some q =>
      rw [hml] at h1
      injection h1 with h1
      have ht : Total comb n m [] q.1 := Total.label l [] (.key hs.1 (by rw [List.nil_append]; exact hml)) (fun k hk hne => by
        rw [List.nil_append] at hk hne
        have h2 := hm k hk
        rw [Trie.lookup_leaf] at h2
        by_cases hkl : k = l
        · exact ⟨[], by rw [hkl, List.append_nil]⟩
        · rw [if_neg hkl] at h2
          unfold AMap.stored at h2
          cases hm2 : m k with
          | none => exact absurd hm2 hne
          | some q => rw [hm2] at h2; cases h2)
      have hx := htot.unique ht
      subst hx
      refine ⟨h.valid l q hs.1 hml, hg, l, Nat.le_of_eq hs.1, .inl ⟨hs.1, q.2, hml, ?_⟩⟩
      have h1' : (T.store q.1).then q.2 = v := h1
      rw [h1', ← show e = labelBits l n from hc]
      rfl
  | fork l e y a b =>
    have hlt := hs.1
    have hbr : ∀ (bit : Bool) (k : Bits), k.length = n - l.length - 1 → m.stored T ((l ++ [bit]) ++ k) = (if bit then b else a).lookup k := by
      intro bit k hk
      have := hm (l ++ bit :: k) (by simp; omega)
      rw [Trie.lookup_fork] at this
      rw [← this]
      simp
    have hpl : ∀ bit : Bool, (l ++ [bit]).length + (n - l.length - 1) = n := by intro bit; simp; omega
    obtain ⟨xa, va, hva, hea, hta⟩ := total_trie law h.valid (l ++ [false]) hs.2.2.1 hc.2.2.1 hg.2.2.1 (hpl false) (hbr false)
    obtain ⟨xb, vb, hvb, heb, htb⟩ := total_trie law h.valid (l ++ [true]) hs.2.2.2 hc.2.2.2 hg.2.2.2 (hpl true) (hbr true)
    obtain ⟨z, hz⟩ := hg.2.1 _ rfl
    have hcomp := law.comp xa xb hva hvb va vb (hea ▸ hg.2.2.1.small) (heb ▸ hg.2.2.2.small)
    rw [hea, heb] at hz
    cases hcb : comb xa xb with
    | none =>
      rw [hcb] at hcomp
      obtain ⟨e, he⟩ := hcomp
      rw [hz] at he; cases he
    | some w =>
      rw [hcb] at hcomp
      dsimp only at hcomp
      have hy : y = T.store w := by
        rw [hc.2.1, hea, heb]
        unfold Comparator.get
        dsimp only
        rw [hcomp]
      have ht : Total comb n m [] w := Total.label l [] (by rw [List.nil_append]; exact .both hta htb hcb) (fun k hk hne => by
        rw [List.nil_append] at hk hne
        have h2 := hm k hk
        by_cases hpre : ∃ bit r, k = l ++ bit :: r
        · obtain ⟨bit, r, rfl⟩ := hpre
          exact ⟨_, rfl⟩
        · rw [Trie.lookup_fork_none (fun bit r h => hpre ⟨bit, r, h⟩)] at h2
          unfold AMap.stored at h2
          cases hm2 : m k with
          | none => exact absurd hm2 hne
          | some q => rw [hm2] at h2; cases h2)
      have hx := htot.unique ht
      subst hx
      refine ⟨law.valid _ _ _ hva hvb hcb, hg.1, l, Nat.le_of_lt hlt, .inr ⟨hlt, a.cell, b.cell, ?_⟩⟩
      show Cell.mk false (e ++ y.bits) (a.cell :: b.cell :: y.refs) = _
      rw [hy, ← show e = labelBits l n from hc.1]

theorem LabelRead.of_enc {n : Nat} {l : Bits} (hl : l.length ≤ n) (hn : n ≤ 1023) : LabelRead n l (Enc.bits (labelBits l n)) :=
  ⟨_, rfl, fun rest refs => readLabel_enc (labelBits_enc l n hl) hl hn rest refs⟩

/-- The root is a node of the grammar. -/
theorem aug_root_node {α β : Type} {A : Tlb α} {V : Tlb β} {T : AugType α} {valid : α → Prop} {comb : α → α → Option α} (law : T.Lawful valid comb)
    (hT : ∀ a, valid a → A.R a ((T.store a).bits, (T.store a).refs)) {acc : Cell → Bool} {n : Nat} (hn : n ≤ 1023) {c : Cell} {x : α} {m : AMap α}
    (h : AugDict.Is T valid comb acc n ⟨some c, x⟩ m) (hV : ∀ k p, k.length = n → m k = some p → ∃ b, V.R b (p.2.bits, p.2.refs)) :
    c = Tlb.cellOf (c.bits, c.refs) ∧ acc c = true ∧ (c.bits.length ≤ 1023 ∧ c.refs.length ≤ 4) ∧ AugNode n A V x (c.bits, c.refs) := by
  obtain ⟨hv, hok, l, hl, ⟨h1, v, h2, rfl⟩ | ⟨h1, a, b, rfl⟩⟩ := aug_root_shape law h
  · exact ⟨rfl, hok.2.2, ⟨hok.1, hok.2.1⟩, l, _, _, LabelRead.of_enc hl hn, .inr ⟨h1, _, _, hT x hv, hV l (x, v) h1 h2, rfl⟩, rfl⟩
  · exact ⟨rfl, hok.2.2, ⟨hok.1, hok.2.1⟩, l, _, _, LabelRead.of_enc hl hn, .inl ⟨by omega, _, _, ⟨a, b, rfl⟩, hT x hv, rfl⟩, rfl⟩

theorem currencyAug_store {acc : Cell → Bool} {a : Currency} (h : a.Ok) : (currencyAug acc).store a = ⟨(Currency.enc a).1, (Currency.enc a).2⟩ := by
  have hs := currency_enc_small h
  show ((Currency.store a).toSl.toOption).getD .empty = _
  rw [Wr.toSl_ok (C45_codes.writes a h) ⟨by omega, by omega⟩]
  rfl

theorem labelBits_small {l : Bits} {n k : Nat} (hl : l.length ≤ n) (hk : bitsForLen n ≤ k) : (labelBits l n).length ≤ 2 + k + n := by
  have := labelBits_min l n hl (LabelEnc.long l)
  rw [List.length_append, List.length_append, natBits_length] at this
  have h2 : ([true, false] : Bits).length = 2 := rfl
  omega

/-! ## C70 -/

/-- **C70, roots in place.** The contents of the root cell of an augmented dictionary that stands for a map, followed by anything: `load_from_root_ext` takes exactly
the root, gives the same cell, and the extra of the dictionary, and leaves what follows. -/
theorem C70_root_in_place {α β : Type} {A : Tlb α} {V : Tlb β} (ha : A.Sound) (hv : V.Sound) {T : AugType α} {valid : α → Prop} {comb : α → α → Option α}
    (law : T.Lawful valid comb) (hT : ∀ a, valid a → A.R a ((T.store a).bits, (T.store a).refs)) {acc : Cell → Bool} {n : Nat} (h0 : 0 < n) (hn : n ≤ 1023)
    {c : Cell} {x : α} {m : AMap α} (h : AugDict.Is T valid comb acc n ⟨some c, x⟩ m)
    (hV : ∀ k p, k.length = n → m k = some p → ∃ b, V.R b (p.2.bits, p.2.refs)) {s : CSlice Cell} (hs : s.WF) {rest : Enc Cell} (hc : s.contents = (c.bits, c.refs) ++ rest) :
    ∃ s', augRootLoad acc n A.load V.load s = (.ok (x, c), s') ∧ s'.WF ∧ s'.contents = rest := by
  obtain ⟨h1, h2, h3, h4⟩ := aug_root_node (A := A) (V := V) law hT hn h hV
  have hl := Rd.consumed_loads ((Rd.label_loads h0).bind (fun l _ _ => augTail_loads ha hv n l)) acc
  obtain ⟨s', g1, g2, g3, _⟩ := hl.reads (x, c) (c.bits, c.refs) ⟨h4, h1, h2⟩ s rest hs hc
  exact ⟨s', g1, g2, g3⟩

/-- **C70, any root.** Whatever is loaded in place: the root is exactly what was taken from the slice, and the context accepts it. -/
theorem C70_root_consumed {α β : Type} {A : Tlb α} {V : Tlb β} (ha : A.Sound) (hv : V.Sound) {acc : Cell → Bool} {n : Nat} (h0 : 0 < n) {s s' : CSlice Cell} (hs : s.WF)
    {x : α} {c : Cell} (h : augRootLoad acc n A.load V.load s = (.ok (x, c), s')) :
    s.contents = (c.bits, c.refs) ++ s'.contents ∧ c.exotic = false ∧ acc c = true ∧ AugNode n A V x (c.bits, c.refs) := by
  have hl := Rd.consumed_loads ((Rd.label_loads h0).bind (fun l _ _ => augTail_loads ha hv n l)) acc
  obtain ⟨e, ⟨h1, h2, h3⟩, h4, _⟩ := hl.exact s s' (x, c) hs h
  dsimp only at h2 h3 h1
  subst h2
  exact ⟨h4, rfl, h3, h1⟩

/-- **C70, the codec** of account blocks: what is stored is read back, and only encodings of the grammar are read. -/
theorem C70_codec (acc : Cell → Bool) : (accountBlock acc).Sound := accountBlock_sound acc

/-- **C70, account blocks.** A dictionary of transactions that stands for a map (64-bit keys, fees as extras, references to ordinary cells as values): the
block is stored and comes back as it was, with the sum of the fees as the extra. There is always room for it. -/
theorem C70_account_block {acc acc' : Cell → Bool} {account : List Byte} (hacc : account.length = 32) {upd : Cell} (hu : upd.exotic = false) {c : Cell} {x : Currency}
    {m : AMap Currency} (h : AugDict.Is (currencyAug acc') (Currency.Valid acc') (fun a b => (a.checkedAdd acc' b).toOption) acc 64 ⟨some c, x⟩ m)
    (hm : ∀ k p, k.length = 64 → m k = some p → ∃ t : Cell, p.2 = ⟨[], [t]⟩ ∧ t.exotic = false) :
    reloaded (accountBlock acc) ⟨account, (some c, x), upd⟩ = .ok ⟨account, (some c, x), upd⟩ ∧ x.tokens = ((m.extras [] 64).map Currency.tokens).sum := by
  have law := currencyAug_lawful acc'
  have hT : ∀ a, Currency.Valid acc' a → Tlb.currency.R a (((currencyAug acc').store a).bits, ((currencyAug acc').store a).refs) := fun a ha => by
    rw [currencyAug_store ha.1]
    exact Tlb.currency_sound.st.canon a ha.1
  have hV : ∀ k p, k.length = 64 → m k = some p → ∃ b, (Tlb.lazy false).R b (p.2.bits, p.2.refs) := fun k p hk hp => by
    obtain ⟨t, ht, hx⟩ := hm k p hk hp
    refine ⟨t, ?_⟩
    rw [ht]
    exact (Tlb.lazy_sound false).st.canon t hx
  obtain ⟨h1, h2, h3, h4⟩ := aug_root_node (A := Tlb.currency) (V := Tlb.lazy false) law hT (by decide) h hV
  refine ⟨reloaded_ok (accountBlock_sound acc) ⟨hacc, ⟨(c.bits, c.refs), congrArg some h1, h3, by rw [← h1]; exact h2, h4⟩, hu⟩ ?_, (C33_currency acc' acc h).1⟩
  have hsize : c.bits.length ≤ 200 ∧ c.refs.length ≤ 3 := by
    obtain ⟨hv, hok, l, hl, ⟨g1, v, g2, rfl⟩ | ⟨g1, a, b, rfl⟩⟩ := aug_root_shape law h
    · obtain ⟨t, ht, _⟩ := hm l _ g1 g2
      dsimp only at ht
      have s1 := currency_enc_small hv.1
      have s2 := labelBits_small (k := 7) hl (by decide)
      rw [currencyAug_store hv.1, ht]
      show (labelBits l 64 ++ ((Currency.enc x).1 ++ [])).length ≤ 200 ∧ ((Currency.enc x).2 ++ [t]).length ≤ 3
      rw [List.length_append, List.append_nil, List.length_append]
      have : [t].length = 1 := rfl
      omega
    · have s1 := currency_enc_small hv.1
      have s2 := labelBits_small (k := 7) hl (by decide)
      rw [currencyAug_store hv.1]
      show (labelBits l 64 ++ (Currency.enc x).1).length ≤ 200 ∧ (a :: b :: (Currency.enc x).2).length ≤ 3
      rw [List.length_append, List.length_cons, List.length_cons]
      omega
  have e : (accountBlock acc).enc ⟨account, (some c, x), upd⟩ = Enc.bits (natBits 4 5) ++ (Enc.bits (bytesToBits account) ++ ((c.bits, c.refs) ++ Enc.ref upd)) := rfl
  rw [e]
  show (natBits 4 5 ++ (bytesToBits account ++ (c.bits ++ []))).length ≤ 1023 ∧ ([] ++ ([] ++ (c.refs ++ [upd]))).length ≤ 4
  simp only [List.length_append, bytesToBits_length, natBits_length, hacc, List.length_nil, List.length_singleton]
  omega

/-- **C70, what cannot be stored:** a block without transactions, or with an exotic cell as the root of the dictionary; nothing is written. -/
theorem C70_no_transactions (acc : Cell → Bool) (account : List Byte) (x : Currency) (upd : Cell) (b : CellB Cell) :
    (accountBlock acc).store ⟨account, (none, x), upd⟩ b = (.error .invalidData, b) ∧
    ∀ c : Cell, c.exotic = true → (accountBlock acc).store ⟨account, (some c, x), upd⟩ b = (.error .unexpectedExoticCell, b) := by
  refine ⟨rfl, fun c hc => ?_⟩
  show ((if c.exotic then Prog.fail .unexpectedExoticCell else pure () : Wr Cell Unit) >>= _) b = _
  rw [if_pos hc]
  rfl

/-! ### Examples -/

/-- The first transaction, with fees in other currencies also. -/
def exTx1 : AOp Currency := .insert .set (natBits 64 7) sampleA ⟨[], [.mk false [true] []]⟩

/-- The second transaction. -/
def exTx2 : AOp Currency := .insert .set (natBits 64 12) ⟨30, none⟩ ⟨[], [.mk false [false] []]⟩

/-- Both. -/
def exTxs : AugDict Currency := ((AugDict.new (currencyAug fun _ => true)).runs (currencyAug fun _ => true) (fun _ => true) 64 [exTx1, exTx2]).2

theorem runs_two {A : Type} (T : AugType A) (acc : Cell → Bool) (n : Nat) (s : AugDict A) (a b : AOp A) :
    (s.runs T acc n [a, b]).2 = (b.run T acc n (a.run T acc n s).2).2 := rfl

/-- The hypotheses of `C70_account_block` hold for a dictionary with two transactions. -/
theorem exTxs_is : ∃ c x m, exTxs = ⟨some c, x⟩ ∧ AugDict.Is (currencyAug fun _ => true) (Currency.Valid fun _ => true) (fun a b => (a.checkedAdd (fun _ => true) b).toOption)
      (fun _ => true) 64 ⟨some c, x⟩ m ∧ (∀ k p, k.length = 64 → m k = some p → ∃ t : Cell, p.2 = ⟨[], [t]⟩ ∧ t.exotic = false) := by
  have law := currencyAug_lawful fun _ => true
  have hmax : ∀ {n : Nat}, n ≤ 1000 → n ≤ VarKind.tokens.max := fun {n} h => Nat.le_trans h (by decide +kernel)
  have v1 : Currency.Valid (fun _ => true) sampleA := ⟨hmax (by decide +kernel), _, coinsC_any exAmounts_A.1⟩
  have v2 : Currency.Valid (fun _ => true) ⟨30, none⟩ := ⟨hmax (by decide), _, coins_none _⟩
  have step : ∀ {s : AugDict Currency} {m : AMap Currency} (op : AOp Currency), op.Valid (Currency.Valid fun _ => true) →
      AugDict.Is (currencyAug fun _ => true) (Currency.Valid fun _ => true) (fun a b => (a.checkedAdd (fun _ => true) b).toOption) (fun _ => true) 64 s m →
      (op.run (currencyAug fun _ => true) (fun _ => true) 64 s).1.isOk = true →
      AugDict.Is (currencyAug fun _ => true) (Currency.Valid fun _ => true) (fun a b => (a.checkedAdd (fun _ => true) b).toOption) (fun _ => true) 64
        (op.run (currencyAug fun _ => true) (fun _ => true) 64 s).2 (op.spec (currencyAug fun _ => true) m).2 := by
    intro s m op hop h hok
    rcases C33_step law (fun _ => true) (by decide : 64 ≤ 1023) h op hop with ⟨_, _, h⟩ | ⟨_, ⟨e, he⟩, _⟩
    · exact h
    · rw [he] at hok; cases hok
  have h1 := step exTx1 v1 (C33_new _ _ _ _ 64) (by decide +kernel)
  have h2 := step exTx2 v2 h1 (by decide +kernel)
  have hr : exTxs.root.isSome = true := by decide +kernel
  have he : exTxs = (exTx2.run (currencyAug fun _ => true) (fun _ => true) 64 (exTx1.run (currencyAug fun _ => true) (fun _ => true) 64 (AugDict.new (currencyAug fun _ => true))).2).2 := runs_two _ _ _ _ _ _
  rw [← he] at h2
  rcases hx : exTxs with ⟨root, x⟩
  rw [hx] at h2 hr
  cases root with
  | none => cases hr
  | some c =>
    refine ⟨c, x, _, rfl, h2, ?_⟩
    intro k p hk hp
    have hp : (if k = natBits 64 12 then some (⟨30, none⟩, ⟨[], [.mk false [false] []]⟩) else
      if k = natBits 64 7 then some (sampleA, ⟨[], [.mk false [true] []]⟩) else none : Option (Currency × Sl)) = some p := hp
    by_cases k1 : k = natBits 64 12
    · rw [if_pos k1] at hp
      injection hp with hp
      exact ⟨_, by rw [← hp], rfl⟩
    · rw [if_neg k1] at hp
      by_cases k2 : k = natBits 64 7
      · rw [if_pos k2] at hp
        injection hp with hp
        exact ⟨_, by rw [← hp], rfl⟩
      · rw [if_neg k2] at hp; cases hp

example : (reloaded (accountBlock fun _ => true) ⟨List.replicate 32 7, (exTxs.root, exTxs.extra), .mk false [] []⟩).toOption.map (fun v => (v.transactions.2.tokens, v.account)) =
    some (sampleA.tokens + 30, List.replicate 32 7) := by decide +kernel

end Verif
