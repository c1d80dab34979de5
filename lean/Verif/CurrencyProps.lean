import Verif.Currency
/-
C45: arithmetic of currency collections.
-/
set_option linter.unusedVariables false
set_option linter.unusedSimpArgs false
namespace Verif

/-! ### Amounts as values of a dictionary -/

theorem leastBytes_bytes {v : V248} (h : v.WF) : LeastBytes v.bytes v.val :=
  ⟨(V248.bytes_spec h).1 (Nat.le_refl _), fun m hm => (V248.bytes_spec h).2 hm⟩

theorem amount_codes : Codes okAmount (V248.store : V248 → Wr Cell Unit) V248.load amountR amountEnc where
  writes v h := (V248.C41_v248_store h.1 h.2 (leastBytes_bytes h.1)).1.writes
  canon v h := ⟨h, v.bytes, (V248.bytes_spec h.1).2 h.2, (leastBytes_bytes h.1).1, rfl⟩
  valid v e h := h.1
  reads v e h := by
    obtain ⟨hv, n, hn, hlt, rfl⟩ := h
    exact V248.C41_v248_load.1 n v hv.1 hn hlt
  exact := V248.C41_v248_load.2.1.weaken fun v e h => ⟨⟨h.1, h.2.1⟩, h.2.2⟩
  safe := V248.C41_v248_load.2.2

theorem amountEnc_small {v : V248} (h : okAmount v) : (amountEnc v).1.length ≤ 253 ∧ (amountEnc v).2 = [] := by
  have hb := (V248.bytes_spec h.1 (j := 31)).2 h.2
  refine ⟨?_, rfl⟩
  show (natBits 5 v.bytes ++ natBits (8 * v.bytes) v.val).length ≤ 253
  simp only [List.length_append, natBits_length]
  omega

theorem amountEnc_fits {v : V248} (h : okAmount v) : (amountEnc v).Fits :=
  ⟨Nat.le_trans (amountEnc_small h).1 (by decide), by rw [(amountEnc_small h).2]; exact Nat.zero_le _⟩

theorem coins_key : KeyCodes coins.key okId (natBits 32) := C56_keys.2.2.2.1

theorem coins_bits : coins.key.bits ≤ 1023 := by decide

theorem coins_room : 2 + bitsForLen coins.key.bits + coins.key.bits + 253 ≤ 1023 := by decide

theorem representsC_any {acc : Cell → Bool} {n : Nat} {d : Option Cell} {m : DMap} (h : RepresentsC acc n d m) : Represents acc n d m := by
  cases d with
  | none => exact h
  | some c =>
    obtain ⟨t, h1, h2, h3, h4⟩ := h
    exact ⟨t, h1, h3, h4⟩

theorem coinsC_any {acc : Cell → Bool} {d : Option Cell} {m : Nat → Option Nat} (h : CoinsC acc d m) : Coins acc d m := by
  obtain ⟨tm, ⟨m', h1, h2⟩, h3⟩ := h
  exact ⟨tm, ⟨m', representsC_any h1, h2.1, fun x hx => by
    have := h2.2 x hx
    cases ht : tm x with
    | none => rw [ht] at this; cases hm : m' (natBits 32 x) with
      | none => trivial
      | some s => rw [hm] at this; exact this.elim
    | some v => rw [ht] at this; cases hm : m' (natBits 32 x) with
      | none => rw [hm] at this; exact this.elim
      | some s => rw [hm] at this; exact holds_exactly (T := coins) amount_codes this⟩, h3⟩

/-! ### Changing amounts -/

/-- The function with another value at `id`. -/
def putAmount (m : Nat → Option Nat) (id : Nat) (o : Option Nat) : Nat → Option Nat := fun k => if k = id then o else m k

/-- What the operations on a dictionary of amounts do. `bad` allows failures. -/
structure Bank (acc : Cell → Bool) (bad : Prop) (P : Option Cell → (Nat → Option Nat) → Prop) : Prop where
  congr : ∀ d m m', P d m → (∀ id, okId id → m id = m' id) → P d m'
  get : ∀ d m id, P d m → okId id → ∃ o : Option V248, coins.get d id = .ok o ∧ o.map V248.val = m id ∧ ∀ v, o = some v → okAmount v
  set : ∀ d m id v, P d m → okId id → okAmount v →
    (∃ d', changed (coins.insert acc d id v .set) = .ok d' ∧ P d' (putAmount m id (some v.val))) ∨ (bad ∧ ∃ e, changed (coins.insert acc d id v .set) = .error e)
  remove : ∀ d m id, P d m → okId id →
    (∃ d', changed (coins.remove acc d id) = .ok d' ∧ changed (coins.removeRaw acc d id) = .ok d' ∧ P d' (putAmount m id none)) ∨
    (bad ∧ (∃ e, changed (coins.remove acc d id) = .error e) ∧ ∃ e, changed (coins.removeRaw acc d id) = .error e)

theorem mapIs_ok {H : V248 → Sl → Prop} (hH : ∀ v s, H v s → okAmount v) {m : DMap} {tm : Nat → Option V248}
    (h : MapIs 32 okId (natBits 32) H m tm) {id : Nat} (hid : okId id) {v : V248} (hv : tm id = some v) : okAmount v := by
  have := h.2 id hid
  rw [hv] at this
  cases hm : m (natBits 32 id) with
  | none => rw [hm] at this; exact this.elim
  | some s => rw [hm] at this; exact hH v s this

section
variable {κ β : Type} {T : DictType κ β}

theorem run_get (acc : Cell → Bool) (d : Option Cell) (id : κ) {o : Option β} (h : ((TOp.get id : TOp κ β).run T acc d).1 = .ok (.value o)) :
    T.get d id = .ok o := by
  have h : (T.get d id).map TOut.value = .ok (.value o) := h
  cases hx : T.get d id with
  | error e => rw [hx] at h; cases h
  | ok r =>
    rw [hx] at h
    injection h with h
    injection h with h
    rw [h]

theorem run_insert (acc : Cell → Bool) (d : Option Cell) (id : κ) (v : β) (mode : SetMode) :
    (∀ o, ((TOp.insert mode id v).run T acc d).1 = .ok o → changed (T.insert acc d id v mode) = .ok ((TOp.insert mode id v).run T acc d).2) ∧
    (∀ e, ((TOp.insert mode id v).run T acc d).1 = .error e → ∃ e, changed (T.insert acc d id v mode) = .error e) := by
  show (∀ o, (T.insert acc d id v mode).1.map TOut.flag = .ok o → changed (T.insert acc d id v mode) = .ok (T.insert acc d id v mode).2) ∧
    (∀ e, (T.insert acc d id v mode).1.map TOut.flag = .error e → _)
  rcases T.insert acc d id v mode with ⟨r, d'⟩
  cases r with
  | ok x => exact ⟨fun _ _ => rfl, fun e h => by cases h⟩
  | error e => exact ⟨fun o h => (by cases h), fun e' h => ⟨_, rfl⟩⟩

theorem run_remove (acc : Cell → Bool) (d : Option Cell) (id : κ) :
    (∀ o, ((TOp.remove id : TOp κ β).run T acc d).1 = .ok o → changed (T.remove acc d id) = .ok ((TOp.remove id : TOp κ β).run T acc d).2) ∧
    (∀ e, ((TOp.remove id : TOp κ β).run T acc d).1 = .error e → ∃ e, changed (T.remove acc d id) = .error e) := by
  show (∀ o, (T.remove acc d id).1.map TOut.value = .ok o → changed (T.remove acc d id) = .ok (T.remove acc d id).2) ∧
    (∀ e, (T.remove acc d id).1.map TOut.value = .error e → _)
  rcases T.remove acc d id with ⟨r, d'⟩
  cases r with
  | ok x => exact ⟨fun _ _ => rfl, fun e h => by cases h⟩
  | error e => exact ⟨fun o h => (by cases h), fun e' h => ⟨_, rfl⟩⟩

/-- If `remove` succeeds then so does `remove_raw`, with the same dictionary. -/
theorem remove_raw_ok {acc : Cell → Bool} {d d' : Option Cell} {id : κ} (h : changed (T.remove acc d id) = .ok d') :
    changed (T.removeRaw acc d id) = .ok d' := by
  unfold DictType.remove at h
  generalize T.removeRaw acc d id = x at h ⊢
  rcases x with ⟨r, d1⟩
  cases r with
  | error e => cases h
  | ok o =>
    have h : changed (T.parseOpt o, d1) = .ok d' := h
    cases hp : T.parseOpt o with
    | error e => rw [hp] at h; cases h
    | ok x => rw [hp] at h; exact h

/-- And if all values can be read, then it fails together with `remove_raw`. -/
theorem remove_raw_err {okK : κ → Prop} {encK : κ → Bits} {okV : β → Prop} {H : β → Sl → Prop} (h : Typed T okK encK okV H) {acc : Cell → Bool}
    {P : Option Cell → DMap → Prop} {bad : DMap → Prop}
    (hraw : ∀ d m (op : DOp), P d m → op.key.length = T.key.bits →
      ((op.run acc T.key.bits d).1 = .ok (op.spec m).1 ∧ P (op.run acc T.key.bits d).2 (op.spec m).2) ∨
      ((∃ e, (op.run acc T.key.bits d).1 = .error e) ∧ (op.run acc T.key.bits d).2 = d ∧ (∀ k, op ≠ .get k) ∧ bad (op.spec m).2))
    {d : Option Cell} {m : DMap} {tm : κ → Option β} (hd : P d m) (hm : MapIs T.key.bits okK encK H m tm) {x : κ} (hx : okK x)
    (he : ∃ e, changed (T.remove acc d x) = .error e) : ∃ e, changed (T.removeRaw acc d x) = .error e := by
  have hrun : T.removeRaw acc d x = dictRemoveOwned acc d (encK x) T.key.bits false := by
    unfold DictType.removeRaw
    rw [(h.keyOf hx).1]
  unfold DictType.remove at he
  rw [hrun] at he ⊢
  have hr := hraw d m (.remove (encK x)) hd (h.keyOf hx).2
  simp only [DOp.run, DOp.spec] at hr
  generalize dictRemoveOwned acc d (encK x) T.key.bits false = y at he hr ⊢
  rcases y with ⟨r, d1⟩
  cases r with
  | error e => exact ⟨e, rfl⟩
  | ok o =>
    rcases hr with ⟨h1, _⟩ | ⟨⟨e, h1⟩, _⟩
    · injection h1 with h1
      injection h1 with h1
      subst h1
      obtain ⟨e, he⟩ := he
      have he : changed (T.parseOpt (m (encK x)), d1) = .error e := he
      rw [h.parseOpt (hm.2 x hx)] at he
      cases he
    · cases h1

theorem mapIs_congr {n : Nat} {okK : κ → Prop} {encK : κ → Bits} {H : β → Sl → Prop} {m : DMap} {tm tm' : κ → Option β}
    (h : MapIs n okK encK H m tm) (e : ∀ x, okK x → tm x = tm' x) : MapIs n okK encK H m tm' :=
  ⟨h.1, fun x hx => by rw [← e x hx]; exact h.2 x hx⟩

end

/-- Dictionaries in canonical form: nothing fails. -/
theorem bank_canonical {acc : Cell → Bool} (hacc : AcceptsTame acc) : Bank acc False (CoinsC acc) := by
  have step : ∀ (d : Option Cell) (tm : Nat → Option V248) (op : TOp Nat V248),
      IsDictC coins okId (natBits 32) okAmount amountEnc acc d tm → op.Ok okId okAmount →
      (op.run coins acc d).1 = .ok (op.spec tm).1 ∧ IsDictC coins okId (natBits 32) okAmount amountEnc acc (op.run coins acc d).2 (op.spec tm).2 := by
    intro d tm op hd hop
    have := C57_no_errors (T := coins) coins_key amount_codes coins_room (fun v hv => amountEnc_small hv) hacc hd [op]
      (fun o ho => by rw [List.mem_singleton.mp ho]; exact hop)
    refine ⟨?_, this.2⟩
    have := this.1
    simp only [TOp.runAll, TOp.specAll, List.map_cons, List.map_nil] at this
    injection this
  refine ⟨?_, ?_, ?_, ?_⟩
  · rintro d m m' ⟨tm, h1, h2⟩ e
    exact ⟨tm, h1, fun id hid => (h2 id hid).trans (e id hid)⟩
  · rintro d m id ⟨tm, h1, h2⟩ hid
    refine ⟨tm id, run_get acc d id (step d tm (.get id) h1 hid).1, h2 id hid, fun v hv => ?_⟩
    obtain ⟨m', _, g⟩ := h1
    exact mapIs_ok (fun v s hs => hs.1) g hid hv
  · rintro d m id v ⟨tm, h1, h2⟩ hid hv
    obtain ⟨e1, e2⟩ := step d tm (.insert .set id v) h1 ⟨hid, hv⟩
    refine Or.inl ⟨_, (run_insert acc d id v .set).1 _ e1, _, e2, fun k hk => ?_⟩
    show (if k = id then some v else tm k).map V248.val = if k = id then some v.val else m k
    split
    · rfl
    · exact h2 k hk
  · rintro d m id ⟨tm, h1, h2⟩ hid
    obtain ⟨e1, e2⟩ := step d tm (.remove id) h1 hid
    have hr := (run_remove acc d id).1 _ e1
    refine Or.inl ⟨_, hr, remove_raw_ok hr, _, e2, fun k hk => ?_⟩
    show (if k = id then none else tm k).map V248.val = if k = id then none else m k
    split
    · rfl
    · exact h2 k hk

/-- Dictionaries in any encoding: a change may fail. -/
theorem bank_any (acc : Cell → Bool) : Bank acc True (Coins acc) := by
  have step : ∀ (d : Option Cell) (tm : Nat → Option V248) (op : TOp Nat V248),
      IsDict coins okId (natBits 32) amountR acc d tm → op.Ok okId okAmount →
      ((op.run coins acc d).1 = .ok (op.spec tm).1 ∧ IsDict coins okId (natBits 32) amountR acc (op.run coins acc d).2 (op.spec tm).2) ∨
      (op.writes ∧ (∃ e, (op.run coins acc d).1 = .error e) ∧ (op.run coins acc d).2 = d) :=
    fun d tm op hd hop => C57_any coins_key coins_bits amount_codes (fun v hv => amountEnc_fits hv) acc hd op hop
  have ht := typed_holds (T := coins) coins_key coins_bits amount_codes (fun v hv => amountEnc_fits hv)
  refine ⟨?_, ?_, ?_, ?_⟩
  · rintro d m m' ⟨tm, h1, h2⟩ e
    exact ⟨tm, h1, fun id hid => (h2 id hid).trans (e id hid)⟩
  · rintro d m id ⟨tm, h1, h2⟩ hid
    rcases step d tm (.get id) h1 hid with ⟨e1, _⟩ | ⟨hw, _⟩
    · refine ⟨tm id, run_get acc d id e1, h2 id hid, fun v hv => ?_⟩
      obtain ⟨m', _, g⟩ := h1
      exact mapIs_ok (fun v s hs => by obtain ⟨_, _, e, _, hR, _⟩ := hs; exact hR.1) g hid hv
    · exact hw.elim
  · rintro d m id v ⟨tm, h1, h2⟩ hid hv
    rcases step d tm (.insert .set id v) h1 ⟨hid, hv⟩ with ⟨e1, e2⟩ | ⟨_, ⟨e, he⟩, _⟩
    · refine Or.inl ⟨_, (run_insert acc d id v .set).1 _ e1, _, e2, fun k hk => ?_⟩
      show (if k = id then some v else tm k).map V248.val = if k = id then some v.val else m k
      split
      · rfl
      · exact h2 k hk
    · exact Or.inr ⟨trivial, (run_insert acc d id v .set).2 e he⟩
  · rintro d m id ⟨tm, h1, h2⟩ hid
    rcases step d tm (.remove id) h1 hid with ⟨e1, e2⟩ | ⟨_, ⟨e, he⟩, _⟩
    · have hr := (run_remove acc d id).1 _ e1
      refine Or.inl ⟨_, hr, remove_raw_ok hr, _, e2, fun k hk => ?_⟩
      show (if k = id then none else tm k).map V248.val = if k = id then none else m k
      split
      · rfl
      · exact h2 k hk
    · have hr := (run_remove acc d id).2 e he
      obtain ⟨m', g1, g2⟩ := h1
      exact Or.inr ⟨trivial, hr, remove_raw_err (bad := fun _ => True) ht (raw_any acc coins_bits) g1 g2 hid hr⟩

/-! ### Loops -/

/-- What a loop over `l` makes of the map. -/
def loopMap (comb : Nat → Option Nat → Nat → Option (Option Nat)) (m : Nat → Option Nat) (l : List (Nat × V248)) (id : Nat) : Option Nat :=
  match firstOf l id with
  | none => m id
  | some v => (comb id (m id) v.val).getD (m id)

/-- What one round does: `comb` gives the new entry, or nothing on overflow. -/
def StepIs (bad : Prop) (P : Option Cell → (Nat → Option Nat) → Prop) (f : Option Cell → Nat → V248 → Except Err (Option Cell))
    (comb : Nat → Option Nat → Nat → Option (Option Nat)) : Prop :=
  ∀ d m id v, P d m → okId id → okAmount v →
    (comb id (m id) v.val = none → f d id v = .error .intOverflow) ∧
    (∀ o, comb id (m id) v.val = some o → (∃ d', f d id v = .ok d' ∧ P d' (putAmount m id o)) ∨ (bad ∧ ∃ e, f d id v = .error e))

theorem firstOf_none {l : List (Nat × V248)} {id : Nat} (h : ∀ p ∈ l, id ≠ p.1) : firstOf l id = none := by
  induction l with
  | nil => rfl
  | cons p l ih =>
    obtain ⟨k, v⟩ := p
    show (if id = k then _ else _) = none
    rw [if_neg (h (k, v) List.mem_cons_self)]
    exact ih fun q hq => h q (List.mem_cons_of_mem _ hq)

theorem loop_spec {bad : Prop} {P : Option Cell → (Nat → Option Nat) → Prop} {f : Option Cell → Nat → V248 → Except Err (Option Cell)}
    {comb : Nat → Option Nat → Nat → Option (Option Nat)} (hstep : StepIs bad P f comb) :
    ∀ (l : List (Nat × V248)), (∀ p ∈ l, okId p.1 ∧ okAmount p.2) → l.Pairwise (fun p q => p.1 ≠ q.1) → ∀ (d : Option Cell) (m : Nat → Option Nat), P d m →
      ((∀ p ∈ l, comb p.1 (m p.1) p.2.val ≠ none) →
        (∃ d', forEntries f d (l.map .ok) = .ok d' ∧ P d' (loopMap comb m l)) ∨ (bad ∧ ∃ e, forEntries f d (l.map .ok) = .error e)) ∧
      ((∃ p ∈ l, comb p.1 (m p.1) p.2.val = none) →
        forEntries f d (l.map .ok) = .error .intOverflow ∨ (bad ∧ ∃ e, forEntries f d (l.map .ok) = .error e))
  | [], _, _, d, m, hd => ⟨fun _ => Or.inl ⟨d, rfl, hd⟩, fun ⟨p, hp, _⟩ => by cases hp⟩
  | (id, v) :: l, hok, hne, d, m, hd => by
    have h0 := hok (id, v) List.mem_cons_self
    obtain ⟨s1, s2⟩ := hstep d m id v hd h0.1 h0.2
    rw [List.pairwise_cons] at hne
    have hrun : forEntries f d (((id, v) :: l).map .ok) = match f d id v with
        | .error e => .error e
        | .ok d' => forEntries f d' (l.map .ok) := rfl
    cases hc : comb id (m id) v.val with
    | none =>
      rw [hrun, s1 hc]
      exact ⟨fun h => absurd hc (h (id, v) List.mem_cons_self), fun _ => Or.inl rfl⟩
    | some o =>
      rcases s2 o hc with ⟨d', e1, hd'⟩ | ⟨hb, e, e1⟩
      · have ih := loop_spec hstep l (fun p hp => hok p (List.mem_cons_of_mem _ hp)) hne.2 d' _ hd'
        rw [hrun, e1]
        have same : ∀ p ∈ l, putAmount m id o p.1 = m p.1 := fun p hp => if_neg fun e => hne.1 p hp e.symm
        have hmap : loopMap comb (putAmount m id o) l = loopMap comb m ((id, v) :: l) := by
          funext k
          unfold loopMap
          show _ = match (if k = id then some v else firstOf l k) with
            | none => m k
            | some v => (comb k (m k) v.val).getD (m k)
          by_cases hk : k = id
          · subst hk
            rw [if_pos rfl, firstOf_none fun p hp => hne.1 p hp]
            show putAmount m k o k = (comb k (m k) v.val).getD (m k)
            rw [hc]
            exact if_pos rfl
          · rw [if_neg hk, show putAmount m id o k = m k from if_neg hk]
        constructor
        · intro h
          rw [← hmap]
          exact ih.1 fun p hp => by rw [same p hp]; exact h p (List.mem_cons_of_mem _ hp)
        · rintro ⟨p, hp, h⟩
          rcases List.mem_cons.mp hp with rfl | hp
          · rw [hc] at h; cases h
          · exact ih.2 ⟨p, hp, by rw [same p hp]; exact h⟩
      · rw [hrun, e1]
        exact ⟨fun _ => Or.inr ⟨hb, e, rfl⟩, fun _ => Or.inr ⟨hb, e, rfl⟩⟩

theorem firstOf_mem {l : List (Nat × V248)} {id : Nat} {v : V248} (h : firstOf l id = some v) : (id, v) ∈ l := by
  induction l with
  | nil => cases h
  | cons p l ih =>
    obtain ⟨k, w⟩ := p
    have h' : (if id = k then some w else firstOf l id) = some v := h
    by_cases hk : id = k
    · rw [if_pos hk] at h'; injection h' with h'; rw [hk, h']; exact List.mem_cons_self
    · rw [if_neg hk] at h'; exact List.mem_cons_of_mem _ (ih h')

theorem firstOf_of_mem {l : List (Nat × V248)} (hne : l.Pairwise (fun p q => p.1 ≠ q.1)) {id : Nat} {v : V248} (h : (id, v) ∈ l) : firstOf l id = some v := by
  induction l with
  | nil => cases h
  | cons p l ih =>
    obtain ⟨k, w⟩ := p
    rw [List.pairwise_cons] at hne
    show (if id = k then some w else firstOf l id) = some v
    rcases List.mem_cons.mp h with e | h
    · injection e with e1 e2
      rw [if_pos e1, e2]
    · rw [if_neg fun e => hne.1 _ h e.symm]
      exact ih hne.2 h

/-- The entries that a loop sees. -/
theorem coins_entries {acc : Cell → Bool} {d : Option Cell} {m : Nat → Option Nat} (h : Coins acc d m) :
    ∃ l : List (Nat × V248), coins.entries d = l.map .ok ∧ (∀ p ∈ l, okId p.1 ∧ okAmount p.2) ∧ l.Pairwise (fun p q => p.1 ≠ q.1) ∧
      (∀ id, okId id → (firstOf l id).map V248.val = m id) ∧ ∀ p ∈ l, m p.1 = some p.2.val := by
  obtain ⟨tm, h1, h2⟩ := h
  obtain ⟨_, l, hl, he⟩ := C57_iter (T := coins) coins_key coins_bits amount_codes (fun v hv => amountEnc_fits hv) acc h1
  have hne : l.Pairwise (fun p q => p.1 ≠ q.1) := hl.1.imp fun {p q} hpq e => by
    rw [e] at hpq
    unfold keyBefore at hpq
    rw [if_neg (by decide)] at hpq
    exact absurd hpq (Int.lt_irrefl _)
  obtain ⟨m', _, g⟩ := h1
  refine ⟨l, he, fun p hp => ?_, hne, fun id hid => ?_, fun p hp => ?_⟩
  · have := (hl.2 p.1 p.2).mp hp
    exact ⟨this.1, mapIs_ok (fun v s hs => by obtain ⟨_, _, e, _, hR, _⟩ := hs; exact hR.1) g this.1 this.2⟩
  · rw [← h2 id hid]
    congr 1
    cases ht : tm id with
    | some v => exact firstOf_of_mem hne ((hl.2 id v).mpr ⟨hid, ht⟩)
    | none =>
      refine firstOf_none fun p hp e => ?_
      have := ((hl.2 p.1 p.2).mp hp).2
      rw [← e, ht] at this
      cases this
  · have := (hl.2 p.1 p.2).mp hp
    rw [← h2 _ this.1, this.2]
    rfl

theorem isZero_iff {v : V248} (h : v.WF) : v.isZero = true ↔ v.val = 0 := by
  constructor
  · intro hz
    have hz : (v.hi == 0 && v.lo == 0) = true := hz
    rw [Bool.and_eq_true, beq_iff_eq, beq_iff_eq] at hz
    show v.hi * W128 + v.lo = 0
    rw [hz.1, hz.2, Nat.zero_mul]
  · intro hz
    have : v = V248.zero := V248.val_inj h ⟨by decide, by decide⟩ (hz.trans (by decide))
    rw [this]
    rfl

theorem zero_ok : okAmount V248.zero ∧ V248.zero.val = 0 := ⟨⟨⟨by decide, by decide⟩, by decide⟩, by decide⟩

/-- The amount that arithmetic starts from. -/
theorem getD_amount {o : Option V248} {m : Nat → Option Nat} {id : Nat} (h : o.map V248.val = m id) (hok : ∀ v, o = some v → okAmount v) :
    okAmount (o.getD V248.zero) ∧ (o.getD V248.zero).val = (m id).getD 0 := by
  rw [← h]
  cases o with
  | none => exact zero_ok
  | some v => exact ⟨hok v rfl, rfl⟩

/-- The entry for a computed amount. -/
def entryFor (x : Nat) : Option Nat := if x = 0 then none else some x

theorem writeAmount_spec {acc : Cell → Bool} {bad : Prop} {P : Option Cell → (Nat → Option Nat) → Prop} (B : Bank acc bad P)
    {d : Option Cell} {m : Nat → Option Nat} (hd : P d m) {id : Nat} (hid : okId id) {v : V248} (hv : okAmount v) :
    (∃ d', writeAmount acc d id (some v) = .ok d' ∧ P d' (putAmount m id (entryFor v.val))) ∨ (bad ∧ ∃ e, writeAmount acc d id (some v) = .error e) := by
  have hz := isZero_iff hv.1
  have hrun : writeAmount acc d id (some v) = if v.isZero then changed (coins.remove acc d id) else changed (coins.insert acc d id v .set) := rfl
  rw [hrun]
  unfold entryFor
  by_cases h : v.val = 0
  · rw [if_pos (hz.mpr h), if_pos h]
    rcases B.remove d m id hd hid with ⟨d', h1, _, h3⟩ | ⟨hb, h1, _⟩
    · exact Or.inl ⟨d', h1, h3⟩
    · exact Or.inr ⟨hb, h1⟩
  · rw [if_neg (fun e => h (hz.mp e)), if_neg h]
    exact B.set d m id v hd hid hv

/-- The new entry of `checked_add`. -/
def addComb (M : Nat) (id : Nat) (cur : Option Nat) (y : Nat) : Option (Option Nat) :=
  if cur.getD 0 + y < M then some (entryFor (cur.getD 0 + y)) else none

theorem addStep_spec {acc : Cell → Bool} {bad : Prop} {P : Option Cell → (Nat → Option Nat) → Prop} (B : Bank acc bad P) :
    StepIs bad P (addStep acc) (addComb (2 ^ 248)) := by
  intro d m id v hd hid hv
  obtain ⟨o, h1, h2, h3⟩ := B.get d m id hd hid
  obtain ⟨g1, g2⟩ := getD_amount h2 h3
  obtain ⟨a1, a2, _⟩ := V248.C42_add g1.1 hv.1
  have hrun : addStep acc d id v = writeAmount acc d id ((o.getD V248.zero).checkedAdd v) := by
    unfold addStep
    rw [h1]
  rw [hrun]
  unfold addComb
  rw [← g2]
  constructor
  · intro h
    rw [a2.mpr (Nat.le_of_not_lt fun hlt => by rw [if_pos hlt] at h; cases h)]
    rfl
  · intro r hr
    have hlt : (o.getD V248.zero).val + v.val < 2 ^ 248 := Classical.byContradiction fun hn => by rw [if_neg hn] at hr; cases hr
    rw [if_pos hlt] at hr
    injection hr with hr
    cases hc : (o.getD V248.zero).checkedAdd v with
    | none => exact absurd hlt (Nat.not_lt_of_le (a2.mp hc))
    | some x =>
      obtain ⟨x1, x2, x3⟩ := (a1 x).mp hc
      rw [← hr, ← x2]
      exact writeAmount_spec B hd hid ⟨x1, by rw [x2]; exact x3⟩

/-- The new entry of `checked_sub`. -/
def subComb (id : Nat) (cur : Option Nat) (y : Nat) : Option (Option Nat) :=
  if y ≤ cur.getD 0 then some (entryFor (cur.getD 0 - y)) else none

theorem subStep_spec {acc : Cell → Bool} {bad : Prop} {P : Option Cell → (Nat → Option Nat) → Prop} (B : Bank acc bad P) :
    StepIs bad P (subStep acc) subComb := by
  intro d m id v hd hid hv
  obtain ⟨o, h1, h2, h3⟩ := B.get d m id hd hid
  obtain ⟨g1, g2⟩ := getD_amount h2 h3
  obtain ⟨a1, a2, _⟩ := V248.C42_sub g1.1 hv.1
  have hrun : subStep acc d id v = writeAmount acc d id ((o.getD V248.zero).checkedSub v) := by
    unfold subStep
    rw [h1]
  rw [hrun]
  unfold subComb
  rw [← g2]
  have hsm : (o.getD V248.zero).val - v.val < 2 ^ 248 := Nat.lt_of_le_of_lt (Nat.sub_le _ _) g1.2
  constructor
  · intro h
    rw [a2.mpr (Or.inl (Nat.lt_of_not_le fun hle => by rw [if_pos hle] at h; cases h))]
    rfl
  · intro r hr
    have hle : v.val ≤ (o.getD V248.zero).val := Classical.byContradiction fun hn => by rw [if_neg hn] at hr; cases hr
    rw [if_pos hle] at hr
    injection hr with hr
    cases hc : (o.getD V248.zero).checkedSub v with
    | none =>
      rcases a2.mp hc with h | h
      · exact absurd hle (Nat.not_le_of_lt h)
      · exact absurd hsm (Nat.not_lt_of_le h)
    | some x =>
      obtain ⟨x1, x2, x3, x4⟩ := (a1 x).mp hc
      rw [← hr, ← x3]
      exact writeAmount_spec B hd hid ⟨x1, by rw [x3]; exact x4⟩

/-- The new entry of `checked_clamp`. -/
def clampComb (mb : Nat → Option Nat) (id : Nat) (cur : Option Nat) (x : Nat) : Option (Option Nat) :=
  match mb id with
  | some y => some (if y < x then some y else cur)
  | none => some (if x = 0 then cur else none)

theorem putAmount_same (m : Nat → Option Nat) (id : Nat) : putAmount m id (m id) = m := by
  funext k
  unfold putAmount
  split
  · rename_i h; rw [h]
  · rfl

theorem clampStep_spec {acc : Cell → Bool} {bad : Prop} {P : Option Cell → (Nat → Option Nat) → Prop} (B : Bank acc bad P) {b : Option Cell}
    {mb : Nat → Option Nat} (hb : Coins acc b mb) : StepIs bad P (clampStep acc b) (clampComb mb) := by
  intro d m id v hd hid hv
  obtain ⟨o, h1, h2, h3⟩ := (bank_any acc).get b mb id hb hid
  unfold clampComb clampStep
  rw [h1, ← h2]
  cases o with
  | none =>
    refine ⟨fun h => (by cases h), fun r hr => ?_⟩
    have hr : some (if v.val = 0 then m id else none) = some r := hr
    injection hr with hr
    show (∃ d', (if v.isZero = true then _ else _) = _ ∧ _) ∨ _
    have hz := isZero_iff hv.1
    by_cases h : v.val = 0
    · rw [if_pos h] at hr
      rw [if_pos (hz.mpr h), ← hr, putAmount_same]
      exact Or.inl ⟨d, rfl, hd⟩
    · rw [if_neg h] at hr
      simp only [if_neg (fun e => h (hz.mp e))]
      rw [← hr]
      rcases B.remove d m id hd hid with ⟨d', _, g2, g3⟩ | ⟨hbad, _, g2⟩
      · exact Or.inl ⟨d', g2, g3⟩
      · exact Or.inr ⟨hbad, g2⟩
  | some y =>
    have hy := h3 y rfl
    refine ⟨fun h => (by cases h), fun r hr => ?_⟩
    have hr : some (if y.val < v.val then some y.val else m id) = some r := hr
    injection hr with hr
    have hcmp : v.cmp y = .gt ↔ y.val < v.val := by
      rw [V248.C43_v248 hv.1 hy.1]
      exact Nat.compare_eq_gt
    show (∃ d', (if v.cmp y = .gt then _ else _) = _ ∧ _) ∨ _
    by_cases h : y.val < v.val
    · rw [if_pos h] at hr
      simp only [if_pos (hcmp.mpr h)]
      rw [← hr]
      exact B.set d m id y hd hid hy
    · rw [if_neg h] at hr
      rw [if_neg (fun e => h (hcmp.mp e)), ← hr, putAmount_same]
      exact Or.inl ⟨d, rfl, hd⟩

/-- The new entry of `normalized`. -/
def normComb (id : Nat) (cur : Option Nat) (x : Nat) : Option (Option Nat) := some (if x = 0 then none else cur)

theorem normStep_spec {acc : Cell → Bool} {bad : Prop} {P : Option Cell → (Nat → Option Nat) → Prop} (B : Bank acc bad P) :
    StepIs bad P (normStep acc) normComb := by
  intro d m id v hd hid hv
  unfold normComb normStep
  refine ⟨fun h => (by cases h), fun r hr => ?_⟩
  injection hr with hr
  have hz := isZero_iff hv.1
  by_cases h : v.val = 0
  · rw [if_pos h] at hr
    simp only [if_pos (hz.mpr h)]
    rw [← hr]
    rcases B.remove d m id hd hid with ⟨d', g1, _, g3⟩ | ⟨hbad, g1, _⟩
    · exact Or.inl ⟨d', g1, g3⟩
    · exact Or.inr ⟨hbad, g1⟩
  · rw [if_neg h] at hr
    rw [if_neg (fun e => h (hz.mp e)), ← hr, putAmount_same]
    exact Or.inl ⟨d, rfl, hd⟩

attribute [local irreducible] V248.val

theorem amount_lt {acc : Cell → Bool} {bad : Prop} {P : Option Cell → (Nat → Option Nat) → Prop} (B : Bank acc bad P) {d : Option Cell}
    {m : Nat → Option Nat} (hd : P d m) {id : Nat} (hid : okId id) : amount m id < 2 ^ 248 := by
  obtain ⟨o, _, h2, h3⟩ := B.get d m id hd hid
  obtain ⟨g1, g2⟩ := getD_amount h2 h3
  unfold amount
  rw [← g2]
  exact g1.2

theorem add_core (M : Nat) {l : List (Nat × V248)} {ma mb : Nat → Option Nat} (hlt : ∀ id, okId id → amount ma id < M)
    (e2 : ∀ p ∈ l, okId p.1 ∧ okAmount p.2) (e4 : ∀ id, okId id → (firstOf l id).map V248.val = mb id) (e5 : ∀ p ∈ l, mb p.1 = some p.2.val) :
    ((∀ id, okId id → amount ma id + amount mb id < M) → (∀ p ∈ l, addComb M p.1 (ma p.1) p.2.val ≠ none) ∧
      ∀ id, okId id → loopMap (addComb M) ma l id = componentwise (· + ·) ma mb id) ∧
    (¬ (∀ id, okId id → amount ma id + amount mb id < M) → ∃ p ∈ l, addComb M p.1 (ma p.1) p.2.val = none) := by
  have hc : ∀ p ∈ l, (addComb M p.1 (ma p.1) p.2.val = none ↔ ¬ amount ma p.1 + amount mb p.1 < M) := by
    intro p hp
    have hm : amount mb p.1 = p.2.val := by unfold amount; rw [e5 p hp]; rfl
    rw [hm]
    unfold addComb
    show (if amount ma p.1 + p.2.val < M then _ else _) = none ↔ _
    by_cases h : amount ma p.1 + p.2.val < M
    · rw [if_pos h]; exact ⟨fun e => (by cases e), fun e => absurd h e⟩
    · rw [if_neg h]; exact ⟨fun _ => h, fun _ => rfl⟩
  constructor
  · intro hf
    refine ⟨fun p hp h => (hc p hp).mp h (hf p.1 (e2 p hp).1), fun id hid => ?_⟩
    have hfit := hf id hid
    unfold loopMap componentwise
    rw [← e4 id hid]
    cases hl : firstOf l id with
    | none => rfl
    | some v =>
      have hm : amount mb id = v.val := by unfold amount; rw [e5 _ (firstOf_mem hl)]; rfl
      rw [hm] at hfit
      dsimp only [Option.map_some]
      have hcomb : addComb M id (ma id) v.val = if amount ma id + v.val < M then some (entryFor (amount ma id + v.val)) else none := rfl
      rw [hcomb, if_pos hfit, Option.getD_some, entryFor]
  · intro hf
    refine Classical.byContradiction fun hno => hf fun id hid => ?_
    refine Classical.byContradiction fun hge => ?_
    cases hm : mb id with
    | none =>
      have : amount mb id = 0 := by unfold amount; rw [hm]; rfl
      rw [this] at hge
      exact hge (hlt id hid)
    | some y =>
      have := e4 id hid
      rw [hm] at this
      cases hl : firstOf l id with
      | none => rw [hl] at this; cases this
      | some v => exact hno ⟨(id, v), firstOf_mem hl, (hc _ (firstOf_mem hl)).mpr hge⟩

/-- Addition of the other amounts. -/
theorem extraAdd_spec {acc : Cell → Bool} {bad : Prop} {P : Option Cell → (Nat → Option Nat) → Prop} (B : Bank acc bad P) {a b : Option Cell}
    {ma mb : Nat → Option Nat} (ha : P a ma) (hb : Coins acc b mb) :
    (addFits ma mb → (∃ d, extraAdd acc a b = .ok d ∧ P d (componentwise (· + ·) ma mb)) ∨ (bad ∧ ∃ e, extraAdd acc a b = .error e)) ∧
    (¬ addFits ma mb → extraAdd acc a b = .error .intOverflow ∨ (bad ∧ ∃ e, extraAdd acc a b = .error e)) := by
  obtain ⟨l, e1, e2, e3, e4, e5⟩ := coins_entries hb
  obtain ⟨s1, s2⟩ := loop_spec (addStep_spec B) l e2 e3 a ma ha
  obtain ⟨c1, c2⟩ := add_core (2 ^ 248) (fun id hid => amount_lt B ha hid) e2 e4 e5
  unfold extraAdd
  rw [e1]
  constructor
  · intro hf
    rcases s1 (c1 hf).1 with ⟨d, h1, h2⟩ | h
    · exact Or.inl ⟨d, h1, B.congr _ _ _ h2 (c1 hf).2⟩
    · exact Or.inr h
  · intro hf
    exact s2 (c2 hf)

/-- Subtraction of the other amounts. -/
theorem extraSub_spec {acc : Cell → Bool} {bad : Prop} {P : Option Cell → (Nat → Option Nat) → Prop} (B : Bank acc bad P) {a b : Option Cell}
    {ma mb : Nat → Option Nat} (ha : P a ma) (hb : Coins acc b mb) :
    (subFits ma mb → (∃ d, extraSub acc a b = .ok d ∧ P d (componentwise (· - ·) ma mb)) ∨ (bad ∧ ∃ e, extraSub acc a b = .error e)) ∧
    (¬ subFits ma mb → extraSub acc a b = .error .intOverflow ∨ (bad ∧ ∃ e, extraSub acc a b = .error e)) := by
  obtain ⟨l, e1, e2, e3, e4, e5⟩ := coins_entries hb
  obtain ⟨s1, s2⟩ := loop_spec (subStep_spec B) l e2 e3 a ma ha
  have hc : ∀ p ∈ l, (subComb p.1 (ma p.1) p.2.val = none ↔ ¬ amount mb p.1 ≤ amount ma p.1) := by
    intro p hp
    have hm : amount mb p.1 = p.2.val := by unfold amount; rw [e5 p hp]; rfl
    rw [hm]
    unfold subComb
    show (if p.2.val ≤ amount ma p.1 then _ else _) = none ↔ _
    by_cases h : p.2.val ≤ amount ma p.1
    · rw [if_pos h]; exact ⟨fun e => (by cases e), fun e => absurd h e⟩
    · rw [if_neg h]; exact ⟨fun _ => h, fun _ => rfl⟩
  unfold extraSub
  rw [e1]
  constructor
  · intro hf
    rcases s1 (fun p hp h => (hc p hp).mp h (hf p.1 (e2 p hp).1)) with ⟨d, h1, h2⟩ | h
    · refine Or.inl ⟨d, h1, B.congr _ _ _ h2 fun id hid => ?_⟩
      have hfit := hf id hid
      unfold loopMap componentwise
      rw [← e4 id hid]
      cases hl : firstOf l id with
      | none => rfl
      | some v =>
        have hm : amount mb id = v.val := by unfold amount; rw [e5 _ (firstOf_mem hl)]; rfl
        rw [hm] at hfit
        dsimp only [Option.map_some]
        have hcomb : subComb id (ma id) v.val = if v.val ≤ amount ma id then some (entryFor (amount ma id - v.val)) else none := rfl
        rw [hcomb, if_pos hfit, Option.getD_some, entryFor]
    · exact Or.inr h
  · intro hf
    refine s2 (Classical.byContradiction fun hno => hf fun id hid => ?_)
    refine Classical.byContradiction fun hlt => ?_
    cases hm : mb id with
    | none =>
      have : amount mb id = 0 := by unfold amount; rw [hm]; rfl
      rw [this] at hlt
      exact hlt (Nat.zero_le _)
    | some y =>
      have := e4 id hid
      rw [hm] at this
      cases hl : firstOf l id with
      | none => rw [hl] at this; cases this
      | some v => exact hno ⟨(id, v), firstOf_mem hl, (hc _ (firstOf_mem hl)).mpr hlt⟩

theorem clamp_core (mb : Nat → Option Nat) (id x : Nat) : (clampComb mb id (some x) x).getD (some x) = match mb id with
    | some y => some (min x y)
    | none => if x = 0 then some 0 else none := by
  unfold clampComb
  cases mb id with
  | none =>
    show (if x = 0 then some x else none) = _
    by_cases hz : x = 0
    · rw [hz]
    · rw [if_neg hz, if_neg hz]
  | some y =>
    show (if y < x then some y else some x) = some (min x y)
    by_cases hlt : y < x
    · rw [if_pos hlt, Nat.min_eq_right (Nat.le_of_lt hlt)]
    · rw [if_neg hlt, Nat.min_eq_left (Nat.le_of_not_lt hlt)]

theorem norm_core (id x : Nat) : (normComb id (some x) x).getD (some x) = if x = 0 then none else some x := rfl

/-- The lesser amounts. -/
theorem extraClamp_spec {acc : Cell → Bool} {bad : Prop} {P : Option Cell → (Nat → Option Nat) → Prop} (B : Bank acc bad P) {a b : Option Cell}
    {ma mb : Nat → Option Nat} (ha : P a ma) (ha' : Coins acc a ma) (hb : Coins acc b mb) :
    (∃ d, extraClamp acc a b = .ok d ∧ P d (lesser ma mb)) ∨ (bad ∧ ∃ e, extraClamp acc a b = .error e) := by
  obtain ⟨l, e1, e2, e3, e4, e5⟩ := coins_entries ha'
  obtain ⟨s1, _⟩ := loop_spec (clampStep_spec B hb) l e2 e3 a ma ha
  unfold extraClamp
  rw [e1]
  rcases s1 (fun p hp h => by
      unfold clampComb at h
      cases hm : mb p.1 <;> (rw [hm] at h; cases h)) with ⟨d, h1, h2⟩ | h
  · refine Or.inl ⟨d, h1, B.congr _ _ _ h2 fun id hid => ?_⟩
    unfold loopMap lesser
    have h4 := e4 id hid
    cases hl : firstOf l id with
    | none => rw [hl] at h4; rw [← h4]; rfl
    | some v =>
      rw [hl] at h4
      rw [← h4]
      dsimp only [Option.map_some]
      exact clamp_core mb id v.val
  · exact Or.inr h

/-- Dropping zero entries. -/
theorem extraNorm_spec {acc : Cell → Bool} {bad : Prop} {P : Option Cell → (Nat → Option Nat) → Prop} (B : Bank acc bad P) {a : Option Cell}
    {ma : Nat → Option Nat} (ha : P a ma) (ha' : Coins acc a ma) :
    (∃ d, extraNormalized acc a = .ok d ∧ P d (nonzero ma)) ∨ (bad ∧ ∃ e, extraNormalized acc a = .error e) := by
  obtain ⟨l, e1, e2, e3, e4, e5⟩ := coins_entries ha'
  obtain ⟨s1, _⟩ := loop_spec (normStep_spec B) l e2 e3 a ma ha
  unfold extraNormalized
  rw [e1]
  rcases s1 (fun p hp h => by unfold normComb at h; cases h) with ⟨d, h1, h2⟩ | h
  · refine Or.inl ⟨d, h1, B.congr _ _ _ h2 fun id hid => ?_⟩
    unfold loopMap nonzero amount
    have h4 := e4 id hid
    cases hl : firstOf l id with
    | none => rw [hl] at h4; rw [← h4]; rfl
    | some v =>
      rw [hl] at h4
      rw [← h4]
      exact norm_core id v.val
  · exact Or.inr h

end Verif
