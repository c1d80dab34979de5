import Verif.TypedDict
/-
C57: typed dictionaries are finite maps from keys to values, whatever the key and value types.
-/
set_option linter.unusedVariables false
set_option linter.unusedSimpArgs false
namespace Verif

section
variable {κ β : Type} {T : DictType κ β} {okK : κ → Prop} {encK : κ → Bits} {okV : β → Prop} {R : β → Enc Cell → Prop} {enc : β → Enc Cell}
  {H : β → Sl → Prop}

/-- One operation, over any representation of raw maps. `bad` says why an operation may fail. -/
theorem typed_step [DecidableEq κ] (h : Typed T okK encK okV H) (acc : Cell → Bool) (P : Option Cell → DMap → Prop) (bad : DMap → Prop)
    (hraw : ∀ d m (op : DOp), P d m → op.key.length = T.key.bits →
      ((op.run acc T.key.bits d).1 = .ok (op.spec m).1 ∧ P (op.run acc T.key.bits d).2 (op.spec m).2) ∨
      ((∃ e, (op.run acc T.key.bits d).1 = .error e) ∧ (op.run acc T.key.bits d).2 = d ∧ (∀ k, op ≠ .get k) ∧ bad (op.spec m).2))
    {d : Option Cell} {m : DMap} {tm : κ → Option β} (hd : P d m) (hm : MapIs T.key.bits okK encK H m tm) (op : TOp κ β) (hop : op.Ok okK okV) :
    ((op.run T acc d).1 = .ok (op.spec tm).1 ∧ ∃ m', P (op.run T acc d).2 m' ∧ MapIs T.key.bits okK encK H m' (op.spec tm).2) ∨
    (op.writes ∧ (∃ e, (op.run T acc d).1 = .error e) ∧ (op.run T acc d).2 = d ∧
      ∃ m', MapIs T.key.bits okK encK H m' (op.spec tm).2 ∧ bad m') := by
  have hget : ∀ x, okK x → dictGet d T.key.bits (encK x) = .ok (m (encK x)) := by
    intro x hx
    rcases hraw d m (.get (encK x)) hd (h.keyOf hx).2 with ⟨e, _⟩ | ⟨_, _, hn, _⟩
    · have e : (dictGet d T.key.bits (encK x)).map DOut.value = .ok (.value (m (encK x))) := e
      cases hg : dictGet d T.key.bits (encK x) with
      | error e' => rw [hg] at e; cases e
      | ok v => rw [hg] at e; injection e with e; injection e with e; rw [e]
    · exact absurd rfl (hn _)
  cases op with
  | get x =>
    have hx : okK x := hop
    left
    refine ⟨?_, m, hd, hm⟩
    show (T.get d x).map TOut.value = _
    unfold DictType.get
    rw [(h.keyOf hx).1]
    show (do let r ← dictGet d T.key.bits (encK x); T.parseOpt r).map TOut.value = _
    rw [hget x hx]
    show (T.parseOpt (m (encK x))).map TOut.value = _
    rw [h.parseOpt (hm.2 x hx)]
    rfl
  | contains x =>
    have hx : okK x := hop
    left
    refine ⟨?_, m, hd, hm⟩
    show (T.contains d x).map TOut.flag = _
    unfold DictType.contains
    rw [(h.keyOf hx).1]
    show (do let r ← dictGet d T.key.bits (encK x); .ok r.isSome : Except Err Bool).map TOut.flag = _
    rw [hget x hx]
    show Except.ok (TOut.flag (m (encK x)).isSome) = _
    rw [entryIs_isSome (hm.2 x hx)]
    rfl
  | insert mode x v =>
    obtain ⟨hx, hv⟩ := (hop : okK x ∧ okV v)
    obtain ⟨s, hs, hh⟩ := h.value v hv
    have hrun : T.insert acc d x v mode = dictInsert acc d (encK x) T.key.bits s mode := by
      unfold DictType.insert
      rw [(h.keyOf hx).1]
      dsimp only
      rw [hs]
    have hw : ∀ tm' : κ → Option β, (TOp.spec tm (.insert mode x v)).2 = tm' →
        MapIs T.key.bits okK encK H (DOp.spec m (.insert mode (encK x) s)).2 tm' := by
      intro tm' e
      subst e
      have hput := MapIs.put h hm hx (o := some v) (r := some s) hh
      have hi := entryIs_isSome (hm.2 x hx)
      have hn : (m (encK x)).isNone = !(tm x).isSome := by
        rw [← Option.not_isSome, hi]
      cases mode with
      | set => exact hput
      | replace =>
        show MapIs _ _ _ _ (if (m (encK x)).isSome = true then _ else m) (if (tm x).isSome = true then _ else tm)
        rw [hi]
        cases (tm x).isSome
        · exact hm
        · exact hput
      | add =>
        show MapIs _ _ _ _ (if (m (encK x)).isNone = true then _ else m) (if (!(tm x).isSome) = true then _ else tm)
        rw [hn]
        cases (!(tm x).isSome)
        · exact hm
        · exact hput
    have hf : (DOp.spec m (.insert mode (encK x) s)).1 = .flag (mode.applies (tm x).isSome) := by
      have hi := entryIs_isSome (hm.2 x hx)
      have hn : (m (encK x)).isNone = !(tm x).isSome := by
        rw [← Option.not_isSome, hi]
      cases mode with
      | set => rfl
      | replace => exact congrArg DOut.flag hi
      | add => exact congrArg DOut.flag hn
    rcases hraw d m (.insert mode (encK x) s) hd (h.keyOf hx).2 with ⟨e1, e2⟩ | ⟨⟨e, e1⟩, e2, _, hb⟩
    · left
      rw [hf] at e1
      have e1 : (dictInsert acc d (encK x) T.key.bits s mode).1.map DOut.flag = _ := e1
      refine ⟨?_, _, ?_, hw _ rfl⟩
      · show (T.insert acc d x v mode).1.map TOut.flag = _
        rw [hrun]
        cases hq : (dictInsert acc d (encK x) T.key.bits s mode).1 with
        | error e' => rw [hq] at e1; cases e1
        | ok b => rw [hq] at e1; injection e1 with e1; injection e1 with e1; rw [e1]; rfl
      · show P (T.insert acc d x v mode).2 _
        rw [hrun]
        exact e2
    · right
      have e1 : (dictInsert acc d (encK x) T.key.bits s mode).1.map DOut.flag = _ := e1
      refine ⟨trivial, ?_, ?_, _, hw _ rfl, hb⟩
      · show ∃ e, (T.insert acc d x v mode).1.map TOut.flag = _
        rw [hrun]
        cases hq : (dictInsert acc d (encK x) T.key.bits s mode).1 with
        | error e' => exact ⟨e', rfl⟩
        | ok b => rw [hq] at e1; cases e1
      · show (T.insert acc d x v mode).2 = d
        rw [hrun]
        exact e2
  | remove x =>
    have hx : okK x := hop
    have hput := MapIs.put h hm hx (o := none) (r := none) trivial
    have hrun : T.removeRaw acc d x = dictRemoveOwned acc d (encK x) T.key.bits false := by
      unfold DictType.removeRaw
      rw [(h.keyOf hx).1]
    have hrem : ∀ r d', dictRemoveOwned acc d (encK x) T.key.bits false = (r, d') → T.remove acc d x = (r.bind T.parseOpt, d') := by
      intro r d' e
      unfold DictType.remove
      rw [hrun, e]
      cases r <;> rfl
    rcases hraw d m (.remove (encK x)) hd (h.keyOf hx).2 with ⟨e1, e2⟩ | ⟨⟨e, e1⟩, e2, _, hb⟩
    · left
      have e1 : (dictRemoveOwned acc d (encK x) T.key.bits false).1.map DOut.value = .ok (.value (m (encK x))) := e1
      have e2 : P (dictRemoveOwned acc d (encK x) T.key.bits false).2 _ := e2
      obtain ⟨⟨r, d'⟩, hp⟩ : ∃ p, dictRemoveOwned acc d (encK x) T.key.bits false = p := ⟨_, rfl⟩
      rw [hp] at e1 e2
      have := hrem _ _ hp
      cases r with
      | error e' => cases e1
      | ok v =>
        injection e1 with e1; injection e1 with e1
        refine ⟨?_, _, ?_, hput⟩
        · show (T.remove acc d x).1.map TOut.value = _
          rw [this, e1]
          show (T.parseOpt (m (encK x))).map TOut.value = _
          rw [h.parseOpt (hm.2 x hx)]
          rfl
        · show P (T.remove acc d x).2 _
          rw [this]
          exact e2
    · right
      have e1 : (dictRemoveOwned acc d (encK x) T.key.bits false).1.map DOut.value = .error e := e1
      have e2 : (dictRemoveOwned acc d (encK x) T.key.bits false).2 = d := e2
      obtain ⟨⟨r, d'⟩, hp⟩ : ∃ p, dictRemoveOwned acc d (encK x) T.key.bits false = p := ⟨_, rfl⟩
      rw [hp] at e1 e2
      have := hrem _ _ hp
      cases r with
      | ok v => cases e1
      | error e' =>
        refine ⟨trivial, ⟨e', ?_⟩, ?_, _, hput, hb⟩
        · show (T.remove acc d x).1.map TOut.value = _
          rw [this]; rfl
        · show (T.remove acc d x).2 = d
          rw [this]; exact e2

/-- The raw operations on canonical dictionaries, for `typed_step`. -/
theorem raw_canonical (acc : Cell → Bool) {n : Nat} (hn : n ≤ 1023) : ∀ d m (op : DOp), RepresentsC acc n d m → op.key.length = n →
    ((op.run acc n d).1 = .ok (op.spec m).1 ∧ RepresentsC acc n (op.run acc n d).2 (op.spec m).2) ∨
    ((∃ e, (op.run acc n d).1 = .error e) ∧ (op.run acc n d).2 = d ∧ (∀ k, op ≠ .get k) ∧ ¬ ∃ d', RepresentsC acc n d' (op.spec m).2) := by
  intro d m op hd hk
  rcases C22_step acc hn hd op with ⟨_, h1, h2⟩ | ⟨h1, h2, h3⟩
  · exact Or.inl ⟨h1, h2⟩
  · have h1 := h1.resolve_left (fun h => h hk)
    refine Or.inr ⟨h2, h3, fun k e => ?_, h1⟩
    subst e
    exact h1 ⟨d, hd⟩

theorem raw_any (acc : Cell → Bool) {n : Nat} (hn : n ≤ 1023) : ∀ d m (op : DOp), Represents acc n d m → op.key.length = n →
    ((op.run acc n d).1 = .ok (op.spec m).1 ∧ Represents acc n (op.run acc n d).2 (op.spec m).2) ∨
    ((∃ e, (op.run acc n d).1 = .error e) ∧ (op.run acc n d).2 = d ∧ (∀ k, op ≠ .get k) ∧ True) := by
  intro d m op hd hk
  rcases C22_any_encoding acc hn hd op hk with h | ⟨h1, h2, h3⟩
  · exact Or.inl h
  · exact Or.inr ⟨h1, h2, h3, trivial⟩

theorem representsC_congr {acc : Cell → Bool} {n : Nat} {d : Option Cell} {m m' : DMap} (h : RepresentsC acc n d m) (e : ∀ k, k.length = n → m' k = m k) :
    RepresentsC acc n d m' := by
  cases d with
  | none => exact fun k hk => (e k hk).trans (h k hk)
  | some c =>
    obtain ⟨t, h1, h2, h3, h4, h5⟩ := h
    exact ⟨t, h1, h2, h3, h4, fun k hk => (e k hk).trans (h5 k hk)⟩

theorem exactly_unique {v : β} {s s' : Sl} (h : IsExactly okV enc v s) (h' : IsExactly okV enc v s') : s = s' := by
  have := h.2.2.trans h'.2.2.symm
  obtain ⟨b, r⟩ := s
  obtain ⟨b', r'⟩ := s'
  injection this with e1 e2
  have e1 : b = b' := e1
  have e2 : r = r' := e2
  rw [e1, e2]

/-- Two raw maps for the same typed map, with canonical values, agree. -/
theorem mapIs_unique {n : Nat} {m m' : DMap} {tm tm' : κ → Option β} (h : MapIs n okK encK (IsExactly okV enc) m tm)
    (h' : MapIs n okK encK (IsExactly okV enc) m' tm') (e : ∀ x, okK x → tm x = tm' x) : ∀ k, k.length = n → m k = m' k := by
  intro k hk
  have key : ∀ x, okK x → encK x = k → m k = m' k := by
    intro x hx ex
    have e1 := h.2 x hx
    have e2 := h'.2 x hx
    rw [ex] at e1 e2
    rw [← e x hx] at e2
    cases ho : tm x with
    | none =>
      rw [ho] at e1 e2
      cases hm : m k with
      | some s => rw [hm] at e1; exact e1.elim
      | none => cases hm' : m' k with
        | some s => rw [hm'] at e2; exact e2.elim
        | none => rfl
    | some v =>
      rw [ho] at e1 e2
      cases hm : m k with
      | none => rw [hm] at e1; exact e1.elim
      | some s => cases hm' : m' k with
        | none => rw [hm'] at e2; exact e2.elim
        | some s' =>
          rw [hm] at e1; rw [hm'] at e2
          rw [exactly_unique e1 e2]
  cases hm : m k with
  | some s =>
    obtain ⟨x, hx, ex⟩ := h.1 k s hk hm
    rw [← hm]; exact key x hx ex
  | none =>
    cases hm' : m' k with
    | none => rfl
    | some s =>
      obtain ⟨x, hx, ex⟩ := h'.1 k s hk hm'
      rw [← hm, ← hm']; exact key x hx ex

/-! ### Iterators -/

theorem yieldsT_cons {σ α : Type} {next : σ → Option α × σ} {it : σ} {p : α} {ps : List α} (h : Yields next it (p :: ps)) :
    (next it).1 = some p ∧ Yields next (next it).2 ps := by
  have tk : ∀ (A : List (Option α)) k, (A ++ List.replicate (k + 1) none).take k = (A ++ List.replicate k none).take k := by
    intro A k
    rw [List.replicate_succ', ← List.append_assoc, List.take_append_of_le_length (by simp)]
  refine ⟨?_, fun k => ?_⟩
  · have := h 1
    simp only [calls, List.map_cons, List.cons_append, List.take_succ_cons, List.take_zero] at this
    injection this
  · have := h (k + 1)
    simp only [calls, List.map_cons, List.cons_append, List.take_succ_cons] at this
    injection this with _ this
    rw [this, tk]

theorem yieldsT_nil {σ α : Type} {next : σ → Option α × σ} {it : σ} (h : Yields next it ([] : List α)) :
    (next it).1 = none ∧ Yields next (next it).2 ([] : List α) := by
  refine ⟨?_, fun k => ?_⟩
  · have := h 1
    simp only [calls, List.map_nil, List.nil_append, List.replicate_succ, List.take_succ_cons, List.take_zero] at this
    injection this
  · have := h (k + 1)
    simp only [calls, List.map_nil, List.nil_append, List.replicate_succ, List.take_succ_cons] at this
    injection this with _ this

theorem runIter_yields {σ α : Type} {next : σ → Option α × σ} : ∀ {l : List α} {it : σ} {K : Nat}, Yields next it l → l.length < K → runIter next K it = l
  | l, it, 0, _, hk => absurd hk (Nat.not_lt_zero _)
  | [], it, K + 1, h, hk => by
    have h0 := (yieldsT_nil h).1
    unfold runIter
    rw [show next it = (none, (next it).2) from Prod.ext h0 rfl]
  | p :: ps, it, K + 1, h, hk => by
    obtain ⟨h0, h1⟩ := yieldsT_cons h
    unfold runIter
    rw [show next it = (some p, (next it).2) from Prod.ext h0 rfl]
    dsimp only
    rw [runIter_yields h1 (Nat.lt_of_succ_lt_succ hk)]

/-- The typed iterator over a raw one that yields readable entries. -/
theorem next_yields {l : List (Bits × Sl)} {it : RawIter} (h : Yields RawIter.next it (l.map .ok)) (hp : ∀ p ∈ l, ∃ q, T.parseEntry p = .ok q) :
    Yields T.next it ((l.filterMap (fun p => (T.parseEntry p).toOption)).map .ok) := by
  refine yields_of_step (fun it out => ∃ l : List (Bits × Sl), Yields RawIter.next it (l.map .ok) ∧ (∀ p ∈ l, ∃ q, T.parseEntry p = .ok q) ∧
    out = (l.filterMap (fun p => (T.parseEntry p).toOption)).map .ok) ?_ ?_ ⟨l, h, hp, rfl⟩
  · rintro it ⟨l, h, hp, e⟩
    cases l with
    | cons p ps =>
      obtain ⟨q, hq⟩ := hp p List.mem_cons_self
      rw [List.filterMap_cons, hq] at e
      cases e
    | nil =>
      obtain ⟨h0, h1⟩ := yieldsT_nil h
      have : T.next it = (none, it.next.2) := by
        unfold DictType.next
        rw [show it.next = (none, it.next.2) from Prod.ext h0 rfl]
      rw [this]
      exact ⟨rfl, [], h1, hp, e⟩
  · rintro it p' ps' ⟨l, h, hp, e⟩
    cases l with
    | nil => cases e
    | cons p ps =>
      obtain ⟨q, hq⟩ := hp p List.mem_cons_self
      obtain ⟨h0, h1⟩ := yieldsT_cons h
      rw [List.filterMap_cons, hq] at e
      injection e with e1 e2
      have : T.next it = (some (.ok q), it.next.2) := by
        unfold DictType.next
        rw [show it.next = (some (.ok p), it.next.2) from Prod.ext h0 rfl]
        dsimp only
        rw [hq]
      rw [this, e1]
      exact ⟨rfl, ps, h1, fun p hp' => hp p (List.mem_cons_of_mem _ hp'), e2⟩

theorem parseEntry_ok (h : Typed T okK encK okV H) {m : DMap} {tm : κ → Option β} (hm : MapIs T.key.bits okK encK H m tm) {p : Bits × Sl}
    (hk : p.1.length = T.key.bits) (hp : m p.1 = some p.2) :
    ∃ x v, okK x ∧ encK x = p.1 ∧ tm x = some v ∧ H v p.2 ∧ T.parseEntry p = .ok (x, v) := by
  obtain ⟨x, hx, ex⟩ := hm.1 _ _ hk hp
  have he := hm.2 x hx
  rw [ex, hp] at he
  obtain ⟨v, hv, hh⟩ := entryIs_some he
  refine ⟨x, v, hx, ex, hv, hh, ?_⟩
  unfold DictType.parseEntry
  rw [← ex, h.parseKey hx, h.parse v _ hh]
  rfl

theorem parseEntry_inv (h : Typed T okK encK okV H) {m : DMap} {tm : κ → Option β} (hm : MapIs T.key.bits okK encK H m tm) {p : Bits × Sl}
    (hk : p.1.length = T.key.bits) (hp : m p.1 = some p.2) {q : κ × β} (hq : (T.parseEntry p).toOption = some q) :
    okK q.1 ∧ encK q.1 = p.1 ∧ tm q.1 = some q.2 := by
  obtain ⟨x, v, h1, h2, h3, _, h4⟩ := parseEntry_ok h hm hk hp
  rw [h4] at hq
  have hq : some (x, v) = some q := hq
  injection hq with hq
  rw [← hq]
  exact ⟨h1, h2, h3⟩

/-- All entries of a map in the order of the forms of their keys. -/
def TListing (okK : κ → Prop) (encK : κ → Bits) (rev s : Bool) (tm : κ → Option β) (l : List (κ × β)) : Prop :=
  l.Pairwise (fun p q => keyBefore rev s (encK p.1) (encK q.1)) ∧ ∀ x v, (x, v) ∈ l ↔ okK x ∧ tm x = some v

theorem typed_listing (h : Typed T okK encK okV H) {m : DMap} {tm : κ → Option β} (hm : MapIs T.key.bits okK encK H m tm) {rev s : Bool}
    {l : List (Bits × Sl)} (hl : Listing rev s T.key.bits m l) :
    TListing okK encK rev s tm (l.filterMap (fun p => (T.parseEntry p).toOption)) := by
  have hin : ∀ p ∈ l, p.1.length = T.key.bits ∧ m p.1 = some p.2 := fun p hp => (hl.2 p.1 p.2).mp hp
  refine ⟨?_, fun x v => ?_⟩
  · rw [List.pairwise_filterMap]
    refine hl.1.imp_of_mem ?_
    intro p q hp hq hpq p' hp' q' hq'
    rw [(parseEntry_inv h hm (hin p hp).1 (hin p hp).2 hp').2.1, (parseEntry_inv h hm (hin q hq).1 (hin q hq).2 hq').2.1]
    exact hpq
  · rw [List.mem_filterMap]
    constructor
    · rintro ⟨p, hp, e⟩
      obtain ⟨h1, h2, h3⟩ := parseEntry_inv h hm (hin p hp).1 (hin p hp).2 e
      exact ⟨h1, h3⟩
    · rintro ⟨hx, hv⟩
      have he := hm.2 x hx
      rw [hv] at he
      cases hmx : m (encK x) with
      | none => rw [hmx] at he; exact he.elim
      | some s =>
        have hlen := (h.keyOf hx).2
        refine ⟨(encK x, s), (hl.2 _ _).mpr ⟨hlen, hmx⟩, ?_⟩
        obtain ⟨y, w, h1, h2, h3, _, h4⟩ := parseEntry_ok h hm (p := (encK x, s)) hlen hmx
        rw [h4]
        have : y = x := h.keyInj h1 hx h2
        subst this
        rw [hv] at h3
        injection h3 with h3
        rw [h3]
        rfl

/-- There are at most as many entries as keys. -/
theorem listing_length {n : Nat} {m : DMap} {l : List (Bits × Sl)} (hl : Listing false false n m l) : l.length ≤ 2 ^ n := by
  have hnd : (l.map (fun p => natOfBits p.1)).Nodup := by
    rw [List.nodup_iff_pairwise_ne, List.pairwise_map]
    refine hl.1.imp ?_
    intro a b hab
    unfold keyBefore at hab
    rw [if_neg (by decide)] at hab
    unfold keyInt at hab
    rw [if_neg (by simp), if_neg (by simp)] at hab
    omega
  have hsub : (l.map (fun p => natOfBits p.1)) ⊆ List.range (2 ^ n) := by
    intro x hx
    obtain ⟨p, hp, rfl⟩ := List.mem_map.mp hx
    rw [List.mem_range]
    have := ((hl.2 p.1 p.2).mp hp).1
    have h2 := natOfBits_lt p.1
    rw [this] at h2
    exact h2
  have := hnd.length_le_of_subset hsub
  simpa using this

/-! ## C57 -/

/-- The root `d` is a dictionary for the map `tm`, with labels and values in any legal encoding. -/
def IsDict (T : DictType κ β) (okK : κ → Prop) (encK : κ → Bits) (R : β → Enc Cell → Prop) (acc : Cell → Bool) (d : Option Cell) (tm : κ → Option β) : Prop :=
  ∃ m, Represents acc T.key.bits d m ∧ MapIs T.key.bits okK encK (Holds R) m tm

/-- The same in canonical form. -/
def IsDictC (T : DictType κ β) (okK : κ → Prop) (encK : κ → Bits) (okV : β → Prop) (enc : β → Enc Cell) (acc : Cell → Bool) (d : Option Cell) (tm : κ → Option β) : Prop :=
  ∃ m, RepresentsC acc T.key.bits d m ∧ MapIs T.key.bits okK encK (IsExactly okV enc) m tm

/-- Every operation on a canonical typed dictionary gives the result of the map and leaves a canonical dictionary of the changed map. It
fails only if there is no such dictionary, and then it changes nothing. -/
theorem C57_step [DecidableEq κ] (hK : KeyCodes T.key okK encK) (hb : T.key.bits ≤ 1023) (hV : Codes okV T.store T.load R enc)
    (hf : ∀ v, okV v → (enc v).Fits) (acc : Cell → Bool) {d : Option Cell} {tm : κ → Option β} (hd : IsDictC T okK encK okV enc acc d tm)
    (op : TOp κ β) (hop : op.Ok okK okV) :
    ((op.run T acc d).1 = .ok (op.spec tm).1 ∧ IsDictC T okK encK okV enc acc (op.run T acc d).2 (op.spec tm).2) ∨
    (op.writes ∧ (∃ e, (op.run T acc d).1 = .error e) ∧ (op.run T acc d).2 = d ∧ ¬ ∃ d', IsDictC T okK encK okV enc acc d' (op.spec tm).2) := by
  obtain ⟨m, h1, h2⟩ := hd
  rcases typed_step (typed_exactly hK hb hV hf) acc _ (fun m => ¬ ∃ d', RepresentsC acc T.key.bits d' m) (raw_canonical acc hb) h1 h2 op hop with ⟨e1, m', e2, e3⟩ | ⟨hw, e1, e2, m', e3, hbad⟩
  · exact Or.inl ⟨e1, m', e2, e3⟩
  · refine Or.inr ⟨hw, e1, e2, ?_⟩
    rintro ⟨d', m'', g1, g2⟩
    exact hbad ⟨d', representsC_congr g1 (mapIs_unique e3 g2 (fun _ _ => rfl))⟩

/-- The same for dictionaries in any legal encoding, without the reason for a failure. -/
theorem C57_any [DecidableEq κ] (hK : KeyCodes T.key okK encK) (hb : T.key.bits ≤ 1023) (hV : Codes okV T.store T.load R enc)
    (hf : ∀ v, okV v → (enc v).Fits) (acc : Cell → Bool) {d : Option Cell} {tm : κ → Option β} (hd : IsDict T okK encK R acc d tm)
    (op : TOp κ β) (hop : op.Ok okK okV) :
    ((op.run T acc d).1 = .ok (op.spec tm).1 ∧ IsDict T okK encK R acc (op.run T acc d).2 (op.spec tm).2) ∨
    (op.writes ∧ (∃ e, (op.run T acc d).1 = .error e) ∧ (op.run T acc d).2 = d) := by
  obtain ⟨m, h1, h2⟩ := hd
  rcases typed_step (typed_holds hK hb hV hf) acc _ (fun _ => True) (raw_any acc hb) h1 h2 op hop with ⟨e1, m', e2, e3⟩ | ⟨hw, e1, e2, m', e3, hbad⟩
  · exact Or.inl ⟨e1, m', e2, e3⟩
  · exact Or.inr ⟨hw, e1, e2⟩

/-- Two canonical dictionaries of the same map are the same cell. -/
theorem C57_canonical {acc acc' : Cell → Bool} {d d' : Option Cell} {tm tm' : κ → Option β} (hd : IsDictC T okK encK okV enc acc d tm)
    (hd' : IsDictC T okK encK okV enc acc' d' tm') (e : ∀ x, okK x → tm x = tm' x) : d = d' := by
  obtain ⟨m, h1, h2⟩ := hd
  obtain ⟨m', h1', h2'⟩ := hd'
  exact C23_canonical h1 h1' (mapIs_unique h2 h2' e)

/-- Iteration yields every entry exactly once, in order (unsigned or signed, ascending or descending), and then ends; `for` loops see
the same entries. -/
theorem C57_iter (hK : KeyCodes T.key okK encK) (hb : T.key.bits ≤ 1023) (hV : Codes okV T.store T.load R enc)
    (hf : ∀ v, okV v → (enc v).Fits) (acc : Cell → Bool) {d : Option Cell} {tm : κ → Option β} (hd : IsDict T okK encK R acc d tm) :
    (∀ rev s, ∃ l, TListing okK encK rev s tm l ∧ Yields T.next (RawIter.new d T.key.bits rev s) (l.map .ok)) ∧
    ∃ l, TListing okK encK false false tm l ∧ T.entries d = l.map .ok := by
  obtain ⟨m, h1, h2⟩ := hd
  have ht := typed_holds hK hb hV hf
  have main : ∀ rev s, ∃ l0 : List (Bits × Sl), Listing rev s T.key.bits m l0 ∧
      Yields T.next (RawIter.new d T.key.bits rev s) ((l0.filterMap (fun p => (T.parseEntry p).toOption)).map .ok) := by
    intro rev s
    obtain ⟨l0, g1, g2⟩ := C24_iter acc hb h1 rev s
    refine ⟨l0, g1, next_yields g2 (fun p hp => ?_)⟩
    obtain ⟨e1, e2⟩ := (g1.2 p.1 p.2).mp hp
    obtain ⟨x, v, _, _, _, _, e⟩ := parseEntry_ok ht h2 e1 e2
    exact ⟨_, e⟩
  refine ⟨fun rev s => ?_, ?_⟩
  · obtain ⟨l0, g1, g2⟩ := main rev s
    exact ⟨_, typed_listing ht h2 g1, g2⟩
  · obtain ⟨l0, g1, g2⟩ := main false false
    refine ⟨_, typed_listing ht h2 g1, runIter_yields g2 ?_⟩
    rw [List.length_map]
    have := List.length_filterMap_le (fun p => (T.parseEntry p).toOption) l0
    have := listing_length g1
    omega

/-- Neighbours of a key, in the order of the forms of the keys. -/
theorem C57_find (hK : KeyCodes T.key okK encK) (hb : T.key.bits ≤ 1023) (hV : Codes okV T.store T.load R enc)
    (hf : ∀ v, okV v → (enc v).Fits) (acc : Cell → Bool) {d : Option Cell} {tm : κ → Option β} (hd : IsDict T okK encK R acc d tm)
    {x : κ} (hx : okK x) (max inclusive s : Bool) :
    ∃ res, T.find d x max inclusive s = .ok res ∧
      match res with
      | none => ∀ y, okK y → (keyBefore (!max) s (encK x) (encK y) ∨ (inclusive = true ∧ y = x)) → tm y = none
      | some (y, v) => okK y ∧ tm y = some v ∧ (keyBefore (!max) s (encK x) (encK y) ∨ (inclusive = true ∧ y = x)) ∧
          ∀ z, okK z → (keyBefore (!max) s (encK x) (encK z) ∨ (inclusive = true ∧ z = x)) → (tm z).isSome = true →
            z = y ∨ keyBefore (!max) s (encK y) (encK z) := by
  obtain ⟨m, h1, h2⟩ := hd
  have ht := typed_holds hK hb hV hf
  obtain ⟨res, e, hn⟩ := C26_neighbour acc hb h1 (ht.keyOf hx).2 max inclusive s
  have hrun : T.find d x max inclusive s = T.parseEntryOpt res := by
    unfold DictType.find
    rw [(ht.keyOf hx).1]
    show (do let r ← dictFind d T.key.bits (encK x) max inclusive s; T.parseEntryOpt r) = _
    rw [e]
    rfl
  rw [hrun]
  cases res with
  | none =>
    refine ⟨none, rfl, fun y hy hc => ?_⟩
    have h0 := hn (encK y) (ht.keyOf hy).2 (hc.imp id (fun h => ⟨h.1, by rw [h.2]⟩))
    have he := h2.2 y hy
    rw [h0] at he
    cases ho : tm y with
    | none => rfl
    | some v => rw [ho] at he; exact he.elim
  | some p =>
    obtain ⟨k0, s0⟩ := p
    obtain ⟨a1, a2, a3, a4⟩ := hn
    obtain ⟨y, v, g1, g2, g3, _, g4⟩ := parseEntry_ok ht h2 (p := (k0, s0)) a1 a2
    have g2 : encK y = k0 := g2
    subst g2
    refine ⟨some (y, v), ?_, g1, g3, a3.imp id (fun h => ⟨h.1, ht.keyInj g1 hx h.2⟩), fun z hz hc hs => ?_⟩
    · show (T.parseEntry (encK y, s0)).map some = _
      rw [g4]; rfl
    · rcases a4 (encK z) (ht.keyOf hz).2 (hc.imp id (fun h => ⟨h.1, by rw [h.2]⟩)) (by rw [entryIs_isSome (h2.2 z hz)]; exact hs) with h | h
      · exact Or.inl (ht.keyInj hz g1 h)
      · exact Or.inr h

/-- The entry with the least or greatest key. -/
def TBound (okK : κ → Prop) (encK : κ → Bits) (max s : Bool) (tm : κ → Option β) : Option (κ × β) → Prop
  | none => ∀ y, okK y → tm y = none
  | some (y, v) => okK y ∧ tm y = some v ∧
      ∀ z, okK z → (tm z).isSome = true → if max then keyInt s (encK z) ≤ keyInt s (encK y) else keyInt s (encK y) ≤ keyInt s (encK z)

theorem C57_bound (hK : KeyCodes T.key okK encK) (hb : T.key.bits ≤ 1023) (hV : Codes okV T.store T.load R enc)
    (hf : ∀ v, okV v → (enc v).Fits) (acc : Cell → Bool) {d : Option Cell} {tm : κ → Option β} (hd : IsDict T okK encK R acc d tm) (max s : Bool) :
    ∃ res, T.bound d max s = .ok res ∧ TBound okK encK max s tm res := by
  obtain ⟨m, h1, h2⟩ := hd
  have ht := typed_holds hK hb hV hf
  obtain ⟨res, e, hn⟩ := C25_find_bound acc hb h1 max s
  have hrun : T.bound d max s = T.parseEntryOpt res := by
    unfold DictType.bound
    rw [e]
    rfl
  rw [hrun]
  cases res with
  | none =>
    refine ⟨none, rfl, fun y hy => ?_⟩
    have h0 := hn (encK y) (ht.keyOf hy).2
    have he := h2.2 y hy
    rw [h0] at he
    cases ho : tm y with
    | none => rfl
    | some v => rw [ho] at he; exact he.elim
  | some p =>
    obtain ⟨k0, s0⟩ := p
    obtain ⟨a1, a2, a4⟩ := hn
    obtain ⟨y, v, g1, g2, g3, _, g4⟩ := parseEntry_ok ht h2 (p := (k0, s0)) a1 a2
    have g2 : encK y = k0 := g2
    subst g2
    refine ⟨some (y, v), ?_, g1, g3, fun z hz hs => ?_⟩
    · show (T.parseEntry (encK y, s0)).map some = _
      rw [g4]; rfl
    · exact a4 (encK z) (ht.keyOf hz).2 (by rw [entryIs_isSome (h2.2 z hz)]; exact hs)

/-- Removing the entry with the least or greatest key returns it and leaves the rest. -/
theorem C57_remove_bound [DecidableEq κ] (hK : KeyCodes T.key okK encK) (hb : T.key.bits ≤ 1023) (hV : Codes okV T.store T.load R enc)
    (hf : ∀ v, okV v → (enc v).Fits) (acc : Cell → Bool) {d : Option Cell} {tm : κ → Option β} (hd : IsDictC T okK encK okV enc acc d tm) (max s : Bool) :
    ∃ res, TBound okK encK max s tm res ∧ match res with
      | none => T.removeBound acc d max s = (.ok none, none)
      | some (x, v) =>
        ((T.removeBound acc d max s).1 = .ok (some (x, ⟨(enc v).1, (enc v).2⟩)) ∧
          IsDictC T okK encK okV enc acc (T.removeBound acc d max s).2 (fun k => if k = x then none else tm k)) ∨
        ((∃ e, T.removeBound acc d max s = (.error e, d)) ∧ ¬ ∃ d', IsDictC T okK encK okV enc acc d' (fun k => if k = x then none else tm k)) := by
  obtain ⟨m, h1, h2⟩ := hd
  have ht := typed_exactly hK hb hV hf
  obtain ⟨res, hn, hr⟩ := C25_remove_bound acc hb h1 max s
  cases res with
  | none =>
    refine ⟨none, fun y hy => ?_, ?_⟩
    · have h0 := hn (encK y) (ht.keyOf hy).2
      have he := h2.2 y hy
      rw [h0] at he
      cases ho : tm y with
      | none => rfl
      | some v => rw [ho] at he; exact he.elim
    · have hr : dictRemoveBound acc d T.key.bits max s = (.ok none, none) := hr
      show T.removeBound acc d max s = _
      unfold DictType.removeBound
      rw [hr]
  | some p =>
    obtain ⟨k0, s0⟩ := p
    obtain ⟨a1, a2, a4⟩ := hn
    obtain ⟨y, v, g1, g2, g3, g5, g4⟩ := parseEntry_ok ht h2 (p := (k0, s0)) a1 a2
    have g2 : encK y = k0 := g2
    subst g2
    have hput := MapIs.put ht h2 g1 (o := none) (r := none) trivial
    refine ⟨some (y, v), ⟨g1, g3, fun z hz hs => a4 (encK z) (ht.keyOf hz).2 (by rw [entryIs_isSome (h2.2 z hz)]; exact hs)⟩, ?_⟩
    have hs0 : s0 = ⟨(enc v).1, (enc v).2⟩ := exactly_unique g5 ⟨g5.1, g5.2.1, rfl⟩
    rcases hr with ⟨e1, e2⟩ | ⟨⟨e, e1⟩, e2⟩
    · left
      have hq : dictRemoveBound acc d T.key.bits max s = (.ok (some (encK y, s0)), (dictRemoveBound acc d T.key.bits max s).2) := Prod.ext e1 rfl
      have : T.removeBound acc d max s = (.ok (some (y, s0)), (dictRemoveBound acc d T.key.bits max s).2) := by
        unfold DictType.removeBound
        rw [hq]
        dsimp only
        rw [ht.parseKey g1]
        rfl
      rw [this]
      exact ⟨by rw [hs0], _, e2, hput⟩
    · right
      refine ⟨⟨e, ?_⟩, ?_⟩
      · unfold DictType.removeBound
        rw [e1]
      · rintro ⟨d', m'', g1', g2'⟩
        exact e2 ⟨d', representsC_congr g1' (mapIs_unique hput g2' (fun _ _ => rfl))⟩

/-- The empty dictionary. -/
theorem C57_empty (acc : Cell → Bool) : IsDictC T okK encK okV enc acc none (fun _ => none) :=
  ⟨fun _ => none, C22_empty acc _, fun k s _ h => (by cases h), fun x _ => trivial⟩

end
end Verif
