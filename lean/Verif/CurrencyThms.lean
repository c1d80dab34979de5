import Verif.CurrencyProps
/-
C45: currency collections add and subtract component-wise. Property theorems.
-/
set_option linter.unusedVariables false
set_option linter.unusedSimpArgs false
namespace Verif
attribute [local irreducible] V248.val

/-! ### Lemmas -/

/-- No entry is zero. -/
def NoZero (m : Nat → Option Nat) : Prop := ∀ id, okId id → m id ≠ some 0

theorem entryFor_amount (x : Nat) : (entryFor x).getD 0 = x := by
  unfold entryFor
  by_cases h : x = 0
  · rw [if_pos h, h]; rfl
  · rw [if_neg h]; rfl

theorem componentwise_none {f : Nat → Nat → Nat} {a b : Nat → Option Nat} {id : Nat} (h : b id = none) : componentwise f a b id = a id := by
  unfold componentwise
  rw [h]

theorem componentwise_some {f : Nat → Nat → Nat} {a b : Nat → Option Nat} {id y : Nat} (h : b id = some y) :
    componentwise f a b id = entryFor (f (amount a id) y) := by
  unfold componentwise entryFor
  rw [h]

theorem amount_some {m : Nat → Option Nat} {id y : Nat} (h : m id = some y) : amount m id = y := by unfold amount; rw [h]; rfl
theorem amount_none {m : Nat → Option Nat} {id : Nat} (h : m id = none) : amount m id = 0 := by unfold amount; rw [h]; rfl

theorem noZero_entry {m : Nat → Option Nat} (h : NoZero m) {id : Nat} (hid : okId id) : m id = entryFor (amount m id) := by
  cases hm : m id with
  | none => rw [amount_none hm]; rfl
  | some y =>
    rw [amount_some hm, entryFor, if_neg]
    intro e
    subst e
    exact h id hid hm

/-- Without zero entries the sum is determined by the amounts. -/
theorem sum_entry {a b : Nat → Option Nat} (ha : NoZero a) {id : Nat} (hid : okId id) :
    componentwise (· + ·) a b id = entryFor (amount a id + amount b id) := by
  cases hb : b id with
  | none =>
    rw [componentwise_none hb, amount_none hb]
    exact noZero_entry ha hid
  | some y => rw [componentwise_some hb, amount_some hb]

theorem noZero_entryFor {m : Nat → Option Nat} (f : Nat → Nat) (h : ∀ id, okId id → m id = entryFor (f id)) : NoZero m := by
  intro id hid e
  rw [h id hid, entryFor] at e
  by_cases hz : f id = 0
  · rw [if_pos hz] at e; cases e
  · rw [if_neg hz] at e; injection e with e; exact hz e

theorem coinsC_canonical {acc acc' : Cell → Bool} {d d' : Option Cell} {m m' : Nat → Option Nat} (h : CoinsC acc d m) (h' : CoinsC acc' d' m')
    (e : ∀ id, okId id → m id = m' id) : d = d' := by
  obtain ⟨tm, h1, h2⟩ := h
  obtain ⟨tm', h1', h2'⟩ := h'
  refine C57_canonical h1 h1' fun id hid => ?_
  have : (tm id).map V248.val = (tm' id).map V248.val := (h2 id hid).trans ((e id hid).trans (h2' id hid).symm)
  obtain ⟨m1, _, g⟩ := h1
  obtain ⟨m1', _, g'⟩ := h1'
  cases ht : tm id with
  | none => cases ht' : tm' id with
    | none => rfl
    | some v => rw [ht, ht'] at this; cases this
  | some v => cases ht' : tm' id with
    | none => rw [ht, ht'] at this; cases this
    | some v' =>
      rw [ht, ht'] at this
      injection this with this
      have o1 := mapIs_ok (fun v s hs => hs.1) g hid ht
      have o2 := mapIs_ok (fun v s hs => hs.1) g' hid ht'
      rw [V248.val_inj o1.1 o2.1 this]

theorem tokens_proper : VarKind.tokens.kind.Proper := by
  unfold IntKind.Proper
  decide

theorem tokens_add (a b : Nat) : VarKind.tokens.kind.checkedAdd a b = if a + b ≤ VarKind.tokens.max then some (a + b) else none :=
  (C53_arith _ tokens_proper a b).1

theorem tokens_sub (a b : Nat) : VarKind.tokens.kind.checkedSub a b = if b ≤ a ∧ a - b ≤ VarKind.tokens.max then some (a - b) else none :=
  (C53_arith _ tokens_proper a b).2.1

theorem combine_ok {t : Option Nat} {o : Except Err (Option Cell)} {r : Currency} (h : Currency.combine t o = .ok r) :
    t = some r.tokens ∧ o = .ok r.other := by
  unfold Currency.combine at h
  cases t with
  | none => cases h
  | some t => cases o with
    | error e => cases h
    | ok d => injection h with h; rw [← h]; exact ⟨rfl, rfl⟩

/-! ### Property theorems -/

/-- What the component-wise results mean in amounts. -/
theorem C45_amounts (a b : Nat → Option Nat) (id : Nat) :
    amount (componentwise (· + ·) a b) id = amount a id + amount b id ∧
    amount (componentwise (· - ·) a b) id = amount a id - amount b id ∧
    amount (lesser a b) id = min (amount a id) (amount b id) ∧ amount (nonzero a) id = amount a id ∧ nonzero a id ≠ some 0 := by
  refine ⟨?_, ?_, ?_, ?_, ?_⟩
  · show (componentwise _ a b id).getD 0 = _
    cases hb : b id with
    | none => rw [componentwise_none hb, amount_none hb]; rfl
    | some y => rw [componentwise_some hb, amount_some hb, entryFor_amount]
  · show (componentwise _ a b id).getD 0 = _
    cases hb : b id with
    | none => rw [componentwise_none hb, amount_none hb]; rfl
    | some y => rw [componentwise_some hb, amount_some hb, entryFor_amount]
  · show (lesser a b id).getD 0 = _
    unfold lesser
    cases ha : a id with
    | none => rw [amount_none ha, Nat.zero_min]; rfl
    | some x =>
      rw [amount_some ha]
      cases hb : b id with
      | none =>
        rw [amount_none hb, Nat.min_zero]
        dsimp only
        split <;> rfl
      | some y => rw [amount_some hb]; rfl
  · show (nonzero a id).getD 0 = _
    unfold nonzero
    by_cases h : amount a id = 0
    · rw [if_pos h, h]; rfl
    · rw [if_neg h]; rfl
  · unfold nonzero
    by_cases h : amount a id = 0
    · rw [if_pos h]; exact fun e => by cases e
    · rw [if_neg h]
      intro e
      exact h (amount_some e)

/-- The sum has the sum of the tokens and of every other amount. It fails exactly when one of them is too large. -/
theorem C45_add {acc : Cell → Bool} (hacc : AcceptsTame acc) {a b : Currency} {ma mb : Nat → Option Nat} (ha : CoinsC acc a.other ma)
    (hb : Coins acc b.other mb) :
    (a.tokens + b.tokens ≤ VarKind.tokens.max ∧ addFits ma mb →
      ∃ r, a.checkedAdd acc b = .ok r ∧ r.tokens = a.tokens + b.tokens ∧ CoinsC acc r.other (componentwise (· + ·) ma mb)) ∧
    (¬ (a.tokens + b.tokens ≤ VarKind.tokens.max ∧ addFits ma mb) → a.checkedAdd acc b = .error .intOverflow) := by
  obtain ⟨h1, h2⟩ := extraAdd_spec (bank_canonical hacc) ha hb
  unfold Currency.checkedAdd
  rw [tokens_add]
  constructor
  · rintro ⟨ht, hf⟩
    rcases h1 hf with ⟨d, e1, e2⟩ | ⟨h, _⟩
    · rw [if_pos ht, e1]
      exact ⟨_, rfl, rfl, e2⟩
    · exact h.elim
  · intro hn
    by_cases ht : a.tokens + b.tokens ≤ VarKind.tokens.max
    · rw [if_pos ht]
      rcases h2 (fun hf => hn ⟨ht, hf⟩) with e | ⟨h, _⟩
      · rw [e]; rfl
      · exact h.elim
    · rw [if_neg ht]; rfl

/-- The difference likewise; it fails exactly when one of the amounts would be negative (or when the tokens were not valid before). -/
theorem C45_sub {acc : Cell → Bool} (hacc : AcceptsTame acc) {a b : Currency} {ma mb : Nat → Option Nat} (ha : CoinsC acc a.other ma)
    (hb : Coins acc b.other mb) :
    ((b.tokens ≤ a.tokens ∧ a.tokens - b.tokens ≤ VarKind.tokens.max) ∧ subFits ma mb →
      ∃ r, a.checkedSub acc b = .ok r ∧ r.tokens = a.tokens - b.tokens ∧ CoinsC acc r.other (componentwise (· - ·) ma mb)) ∧
    (¬ ((b.tokens ≤ a.tokens ∧ a.tokens - b.tokens ≤ VarKind.tokens.max) ∧ subFits ma mb) → a.checkedSub acc b = .error .intOverflow) := by
  obtain ⟨h1, h2⟩ := extraSub_spec (bank_canonical hacc) ha hb
  unfold Currency.checkedSub
  rw [tokens_sub]
  constructor
  · rintro ⟨ht, hf⟩
    rcases h1 hf with ⟨d, e1, e2⟩ | ⟨h, _⟩
    · rw [if_pos ht, e1]
      exact ⟨_, rfl, rfl, e2⟩
    · exact h.elim
  · intro hn
    by_cases ht : b.tokens ≤ a.tokens ∧ a.tokens - b.tokens ≤ VarKind.tokens.max
    · rw [if_pos ht]
      rcases h2 (fun hf => hn ⟨ht, hf⟩) with e | ⟨h, _⟩
      · rw [e]; rfl
      · exact h.elim
    · rw [if_neg ht]; rfl

/-- For dictionaries in any encoding: a result is the right one, and what is too large or negative fails. -/
theorem C45_any (acc : Cell → Bool) {a b : Currency} {ma mb : Nat → Option Nat} (ha : Coins acc a.other ma) (hb : Coins acc b.other mb) :
    (∀ r, a.checkedAdd acc b = .ok r → addFits ma mb ∧ r.tokens = a.tokens + b.tokens ∧ r.tokens ≤ VarKind.tokens.max ∧
      Coins acc r.other (componentwise (· + ·) ma mb)) ∧
    (∀ r, a.checkedSub acc b = .ok r → subFits ma mb ∧ b.tokens ≤ a.tokens ∧ r.tokens = a.tokens - b.tokens ∧ r.tokens ≤ VarKind.tokens.max ∧
      Coins acc r.other (componentwise (· - ·) ma mb)) ∧
    (∀ r, a.checkedClamp acc b = .ok r → r.tokens = min a.tokens b.tokens ∧ Coins acc r.other (lesser ma mb)) := by
  refine ⟨fun r hr => ?_, fun r hr => ?_, fun r hr => ?_⟩
  · obtain ⟨h1, h2⟩ := extraAdd_spec (bank_any acc) ha hb
    obtain ⟨e1, e2⟩ := combine_ok hr
    rw [tokens_add] at e1
    have ht : a.tokens + b.tokens ≤ VarKind.tokens.max := Classical.byContradiction fun hn => by rw [if_neg hn] at e1; cases e1
    rw [if_pos ht] at e1
    injection e1 with e1
    have hf : addFits ma mb := Classical.byContradiction fun hn => by
      rcases h2 hn with e | ⟨_, e', e⟩ <;> (rw [e2] at e; cases e)
    rcases h1 hf with ⟨d, g1, g2⟩ | ⟨_, e, g⟩
    · rw [e2] at g1
      injection g1 with g1
      rw [g1]
      exact ⟨hf, e1.symm, e1 ▸ ht, g2⟩
    · rw [e2] at g; cases g
  · obtain ⟨h1, h2⟩ := extraSub_spec (bank_any acc) ha hb
    obtain ⟨e1, e2⟩ := combine_ok hr
    rw [tokens_sub] at e1
    have ht : b.tokens ≤ a.tokens ∧ a.tokens - b.tokens ≤ VarKind.tokens.max := Classical.byContradiction fun hn => by rw [if_neg hn] at e1; cases e1
    rw [if_pos ht] at e1
    injection e1 with e1
    have hf : subFits ma mb := Classical.byContradiction fun hn => by
      rcases h2 hn with e | ⟨_, e', e⟩ <;> (rw [e2] at e; cases e)
    rcases h1 hf with ⟨d, g1, g2⟩ | ⟨_, e, g⟩
    · rw [e2] at g1
      injection g1 with g1
      rw [g1]
      exact ⟨hf, ht.1, e1.symm, e1 ▸ ht.2, g2⟩
    · rw [e2] at g; cases g
  · unfold Currency.checkedClamp at hr
    rcases extraClamp_spec (bank_any acc) ha ha hb with ⟨d, g1, g2⟩ | ⟨_, e, g⟩
    · rw [g1] at hr
      injection hr with hr
      rw [← hr]
      exact ⟨rfl, g2⟩
    · rw [g] at hr; cases hr

/-- Clamping gives the lesser tokens and amounts. -/
theorem C45_clamp {acc : Cell → Bool} (hacc : AcceptsTame acc) {a b : Currency} {ma mb : Nat → Option Nat} (ha : CoinsC acc a.other ma)
    (hb : Coins acc b.other mb) :
    ∃ r, a.checkedClamp acc b = .ok r ∧ r.tokens = min a.tokens b.tokens ∧ CoinsC acc r.other (lesser ma mb) := by
  rcases extraClamp_spec (bank_canonical hacc) ha (coinsC_any ha) hb with ⟨d, g1, g2⟩ | ⟨h, _⟩
  · refine ⟨⟨min a.tokens b.tokens, d⟩, ?_, rfl, g2⟩
    unfold Currency.checkedClamp
    rw [g1]
  · exact h.elim

/-- `normalized` and `normalize` drop exactly the zero entries. -/
theorem C45_normalized {acc : Cell → Bool} (hacc : AcceptsTame acc) {a : Option Cell} {ma : Nat → Option Nat} (ha : CoinsC acc a ma) :
    ∃ d, extraNormalized acc a = .ok d ∧ extraNormalize acc a = (.ok (), d) ∧ CoinsC acc d (nonzero ma) := by
  rcases extraNorm_spec (bank_canonical hacc) ha (coinsC_any ha) with ⟨d, g1, g2⟩ | ⟨h, _⟩
  · refine ⟨d, g1, ?_, g2⟩
    unfold extraNormalize
    unfold extraNormalized at g1
    rw [g1]
  · exact h.elim

/-- Subtracting what was added gives back the same tokens and amounts, and the very same collection if it had no zero entries. -/
theorem C45_add_sub {acc : Cell → Bool} (hacc : AcceptsTame acc) {a b r : Currency} {ma mb : Nat → Option Nat} (ha : CoinsC acc a.other ma)
    (hb : Coins acc b.other mb) (hat : a.tokens ≤ VarKind.tokens.max) (hr : a.checkedAdd acc b = .ok r) :
    ∃ s m', r.checkedSub acc b = .ok s ∧ s.tokens = a.tokens ∧ CoinsC acc s.other m' ∧ (∀ id, okId id → amount m' id = amount ma id) ∧
      (NoZero ma → s = a) := by
  obtain ⟨h1, h2⟩ := C45_add hacc ha hb
  have hfit : a.tokens + b.tokens ≤ VarKind.tokens.max ∧ addFits ma mb := Classical.byContradiction fun hn => by
    rw [h2 hn] at hr; cases hr
  obtain ⟨r', e1, e2, e3⟩ := h1 hfit
  rw [hr] at e1
  injection e1 with e1
  subst e1
  have hle : b.tokens ≤ r.tokens ∧ r.tokens - b.tokens ≤ VarKind.tokens.max := by rw [e2]; exact ⟨Nat.le_add_left _ _, by rw [Nat.add_sub_cancel]; exact hat⟩
  have hsub : subFits (componentwise (· + ·) ma mb) mb := fun id hid => by rw [(C45_amounts ma mb id).1]; exact Nat.le_add_left _ _
  obtain ⟨s, g1, g2, g3⟩ := (C45_sub hacc e3 hb).1 ⟨hle, hsub⟩
  have htok : s.tokens = a.tokens := by rw [g2, e2, Nat.add_sub_cancel]
  refine ⟨s, _, g1, htok, g3, fun id hid => ?_, fun hz => ?_⟩
  · rw [(C45_amounts _ mb id).2.1, (C45_amounts ma mb id).1, Nat.add_sub_cancel]
  · have hother : s.other = a.other := coinsC_canonical g3 ha fun id hid => by
      cases hm : mb id with
      | none => rw [componentwise_none hm, componentwise_none hm]
      | some y =>
        rw [componentwise_some hm, (C45_amounts ma mb id).1, amount_some hm, Nat.add_sub_cancel]
        exact (noZero_entry hz hid).symm
    cases s; cases a
    simp only at htok hother
    rw [htok, hother]

/-- Without zero entries the order of the summands does not matter, neither for the result nor for the failure. -/
theorem C45_comm {acc : Cell → Bool} (hacc : AcceptsTame acc) {a b : Currency} {ma mb : Nat → Option Nat} (ha : CoinsC acc a.other ma)
    (hb : CoinsC acc b.other mb) (hza : NoZero ma) (hzb : NoZero mb) : a.checkedAdd acc b = b.checkedAdd acc a := by
  obtain ⟨h1, h2⟩ := C45_add hacc ha (coinsC_any hb)
  obtain ⟨g1, g2⟩ := C45_add hacc hb (coinsC_any ha)
  have hiff : (a.tokens + b.tokens ≤ VarKind.tokens.max ∧ addFits ma mb) ↔ (b.tokens + a.tokens ≤ VarKind.tokens.max ∧ addFits mb ma) := by
    rw [Nat.add_comm]
    refine and_congr Iff.rfl ⟨fun h id hid => ?_, fun h id hid => ?_⟩
    · rw [Nat.add_comm (amount mb id)]; exact h id hid
    · rw [Nat.add_comm (amount ma id)]; exact h id hid
  by_cases hf : a.tokens + b.tokens ≤ VarKind.tokens.max ∧ addFits ma mb
  · obtain ⟨r, e1, e2, e3⟩ := h1 hf
    obtain ⟨s, f1, f2, f3⟩ := g1 (hiff.mp hf)
    have hother : r.other = s.other := coinsC_canonical e3 f3 fun id hid => by
      rw [sum_entry hza hid, sum_entry hzb hid, Nat.add_comm]
    have htok : r.tokens = s.tokens := by rw [e2, f2, Nat.add_comm]
    rw [e1, f1]
    cases r; cases s
    simp only at htok hother
    rw [htok, hother]
  · rw [h2 hf, g2 (fun h => hf (hiff.mpr h))]

/-- And neither does the grouping. -/
theorem C45_assoc {acc : Cell → Bool} (hacc : AcceptsTame acc) {a b c : Currency} {ma mb mc : Nat → Option Nat} (ha : CoinsC acc a.other ma)
    (hb : CoinsC acc b.other mb) (hc : CoinsC acc c.other mc) (hza : NoZero ma) (hzb : NoZero mb) :
    ((a.checkedAdd acc b).bind fun x => x.checkedAdd acc c) = ((b.checkedAdd acc c).bind fun x => a.checkedAdd acc x) := by
  obtain ⟨h1, h2⟩ := C45_add hacc ha (coinsC_any hb)
  obtain ⟨g1, g2⟩ := C45_add hacc hb (coinsC_any hc)
  have hsum : ∀ id, okId id → amount (componentwise (· + ·) ma mb) id = amount ma id + amount mb id := fun id _ => (C45_amounts ma mb id).1
  have hsum' : ∀ id, okId id → amount (componentwise (· + ·) mb mc) id = amount mb id + amount mc id := fun id _ => (C45_amounts mb mc id).1
  by_cases hall : a.tokens + b.tokens + c.tokens ≤ VarKind.tokens.max ∧ ∀ id, okId id → amount ma id + amount mb id + amount mc id < 2 ^ 248
  · have f1 : a.tokens + b.tokens ≤ VarKind.tokens.max ∧ addFits ma mb :=
      ⟨Nat.le_trans (Nat.le_add_right _ _) hall.1, fun id hid => Nat.lt_of_le_of_lt (Nat.le_add_right _ _) (hall.2 id hid)⟩
    have f2 : b.tokens + c.tokens ≤ VarKind.tokens.max ∧ addFits mb mc :=
      ⟨Nat.le_trans (by rw [Nat.add_assoc]; exact Nat.le_add_left _ _) hall.1,
        fun id hid => Nat.lt_of_le_of_lt (by rw [Nat.add_assoc]; exact Nat.le_add_left _ _) (hall.2 id hid)⟩
    obtain ⟨r, e1, e2, e3⟩ := h1 f1
    obtain ⟨s, k1, k2, k3⟩ := g1 f2
    rw [e1, k1]
    show r.checkedAdd acc c = a.checkedAdd acc s
    obtain ⟨x, x1, x2, x3⟩ := (C45_add hacc e3 (coinsC_any hc)).1 ⟨by rw [e2]; exact hall.1, fun id hid => by rw [hsum id hid]; exact hall.2 id hid⟩
    obtain ⟨y, y1, y2, y3⟩ := (C45_add hacc ha (coinsC_any k3)).1
      ⟨by rw [k2, ← Nat.add_assoc]; exact hall.1, fun id hid => by rw [hsum' id hid, ← Nat.add_assoc]; exact hall.2 id hid⟩
    rw [x1, y1]
    have htok : x.tokens = y.tokens := by rw [x2, y2, e2, k2, Nat.add_assoc]
    have hzab : NoZero (componentwise (· + ·) ma mb) := noZero_entryFor (fun id => amount ma id + amount mb id) fun id hid => sum_entry hza hid
    have hother : x.other = y.other := coinsC_canonical x3 y3 fun id hid => by
      rw [sum_entry hzab hid, sum_entry hza hid, hsum id hid, hsum' id hid, Nat.add_assoc]
    cases x; cases y
    simp only at htok hother
    rw [htok, hother]
  · have left : ((a.checkedAdd acc b).bind fun x => x.checkedAdd acc c) = .error .intOverflow := by
      by_cases f1 : a.tokens + b.tokens ≤ VarKind.tokens.max ∧ addFits ma mb
      · obtain ⟨r, e1, e2, e3⟩ := h1 f1
        rw [e1]
        refine (C45_add hacc e3 (coinsC_any hc)).2 fun hf => hall ⟨by rw [← e2]; exact hf.1, fun id hid => ?_⟩
        rw [← hsum id hid]
        exact hf.2 id hid
      · rw [h2 f1]; rfl
    have right : ((b.checkedAdd acc c).bind fun x => a.checkedAdd acc x) = .error .intOverflow := by
      by_cases f2 : b.tokens + c.tokens ≤ VarKind.tokens.max ∧ addFits mb mc
      · obtain ⟨s, k1, k2, k3⟩ := g1 f2
        rw [k1]
        refine (C45_add hacc ha (coinsC_any k3)).2 fun hf => hall ⟨by rw [Nat.add_assoc, ← k2]; exact hf.1, fun id hid => ?_⟩
        rw [Nat.add_assoc, ← hsum' id hid]
        exact hf.2 id hid
      · rw [g2 f2]; rfl
    rw [left, right]

/-- The assigning operations: the result on success, and nothing changes on an error. -/
theorem C45_assign (acc : Cell → Bool) (a b : Currency) (t : Nat) :
    (∀ r, a.checkedAdd acc b = .ok r → a.tryAdd acc b = (.ok (), r)) ∧ (∀ e, a.checkedAdd acc b = .error e → a.tryAdd acc b = (.error e, a)) ∧
    (∀ r, a.checkedSub acc b = .ok r → a.trySub acc b = (.ok (), r)) ∧ (∀ e, a.checkedSub acc b = .error e → a.trySub acc b = (.error e, a)) ∧
    a.tryAddTokens t = (if a.tokens + t ≤ VarKind.tokens.max then (.ok (), ⟨a.tokens + t, a.other⟩) else (.error .intOverflow, a)) ∧
    a.trySubTokens t = (if t ≤ a.tokens ∧ a.tokens - t ≤ VarKind.tokens.max then (.ok (), ⟨a.tokens - t, a.other⟩) else (.error .intOverflow, a)) := by
  refine ⟨fun r h => ?_, fun e h => ?_, fun r h => ?_, fun e h => ?_, ?_, ?_⟩
  · unfold Currency.tryAdd; rw [h]; rfl
  · unfold Currency.tryAdd; rw [h]; rfl
  · unfold Currency.trySub; rw [h]; rfl
  · unfold Currency.trySub; rw [h]; rfl
  · unfold Currency.tryAddTokens
    rw [tokens_add]
    by_cases h : a.tokens + t ≤ VarKind.tokens.max
    · rw [if_pos h, if_pos h]
    · rw [if_neg h, if_neg h]
  · unfold Currency.trySubTokens
    rw [tokens_sub]
    by_cases h : t ≤ a.tokens ∧ a.tokens - t ≤ VarKind.tokens.max
    · rw [if_pos h, if_pos h]
    · rw [if_neg h, if_neg h]

end Verif
