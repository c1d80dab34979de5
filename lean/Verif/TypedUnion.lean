import Verif.TypedDictMore
import Verif.DictUnionProps
/-
Typed dictionaries: the iterators over keys, over values and over two dictionaries at once (`dict/typed.rs`).
-/
set_option linter.unusedVariables false
namespace Verif

/-! ### Model -/

namespace DictType
variable {κ β : Type} (T : DictType κ β)

/-- `dict/typed.rs:1223-1231` `Keys::next`. -/
def nextKey (it : RawIter) : Option (Except Err κ) × RawIter :=
  match it.next with
  | (none, it) => (none, it)
  | (some (.error e), it) => (some (.error e), it)
  | (some (.ok p), it) => match T.parseKey p.1 with
    | .ok k => (some (.ok k), it)
    | .error e => (some (.error e), { it with status := .broken })

/-- `dict/typed.rs:1283-1291` `Values::next`. -/
def nextValue (it : RawValues) : Option (Except Err β) × RawValues :=
  match it.next with
  | (none, it) => (none, it)
  | (some (.error e), it) => (some (.error e), it)
  | (some (.ok s), it) => match T.parse s with
    | .ok v => (some (.ok v), it)
    | .error e => (some (.error e), { it with status := .broken })

/-- A key with the values of both sides (`dict/typed.rs:1137-1164`): the key is loaded first, an error of the left value comes before one of the right. -/
def parseUnion (p : UnionItem) : Except Err (κ × Option β × Option β) := do
  let k ← T.parseKey p.1
  let l ← T.parseOpt p.2.1
  let r ← T.parseOpt p.2.2
  .ok (k, l, r)

/-- `dict/typed.rs:1136-1170` `UnionIter::next`. -/
def nextUnion (it : UnionIter) : Option (Except Err (κ × Option β × Option β)) × UnionIter :=
  match it.next with
  | (none, it) => (none, it)
  | (some (.error e), it) => (some (.error e), it)
  | (some (.ok p), it) => match T.parseUnion p with
    | .ok q => (some (.ok q), it)
    | .error e => (some (.error e), it.finish)

end DictType

/-! ### Specification -/

/-- The union of two maps: every key of either one, once and in order, with what both maps hold under it. -/
def TUnion {κ β : Type} (okK : κ → Prop) (encK : κ → Bits) (rev s : Bool) (tl tr : κ → Option β) (u : List (κ × Option β × Option β)) : Prop :=
  u.Pairwise (fun p q => keyBefore rev s (encK p.1) (encK q.1)) ∧
  ∀ x a b, (x, a, b) ∈ u ↔ okK x ∧ a = tl x ∧ b = tr x ∧ ¬ (tl x = none ∧ tr x = none)

/-! ### Lemmas -/

/-- An iterator that parses the items of another one. -/
theorem typedParsed_yields {σ α γ : Type} {next : σ → Option (Except Err α) × σ} {next' : σ → Option (Except Err γ) × σ} {P : α → Except Err γ}
    (hn : ∀ it it', next it = (none, it') → next' it = (none, it'))
    (hs : ∀ it it' a b, next it = (some (.ok a), it') → P a = .ok b → next' it = (some (.ok b), it'))
    {it : σ} {l : List α} {l' : List γ} (h : Yields next it (l.map .ok)) (hl : l.map P = l'.map .ok) : Yields next' it (l'.map .ok) := by
  refine yields_of_step (fun it out => ∃ (l : List α) (l' : List γ), Yields next it (l.map .ok) ∧ l.map P = l'.map .ok ∧ out = l'.map .ok) ?_ ?_ ⟨l, l', h, hl, rfl⟩
  · rintro it ⟨l, l', h, hl, e⟩
    have e' : l' = [] := List.map_eq_nil_iff.mp e.symm
    subst e'
    have e' : l = [] := List.map_eq_nil_iff.mp hl
    subst e'
    obtain ⟨h0, h1⟩ := yieldsT_nil h
    rw [hn it (next it).2 (Prod.ext h0 rfl)]
    exact ⟨rfl, [], [], h1, rfl, rfl⟩
  · rintro it p ps ⟨l, l', h, hl, e⟩
    cases l' with
    | nil => cases e
    | cons b l' =>
      cases l with
      | nil => cases hl
      | cons a l =>
        rw [List.map_cons, List.map_cons] at hl
        injection hl with h1 h2
        rw [List.map_cons] at e
        injection e with e1 e2
        obtain ⟨g0, g1⟩ := yieldsT_cons h
        rw [hs it (next it).2 a b (Prod.ext g0 rfl) h1, e1]
        exact ⟨rfl, l, l', g1, h2, e2⟩

theorem parsed_list {α γ : Type} {P : α → Except Err γ} : ∀ (l : List α), (∀ a ∈ l, ∃ b, P a = .ok b) →
    l.map P = (l.filterMap fun a => (P a).toOption).map .ok
  | [], _ => rfl
  | a :: l, h => by
    obtain ⟨b, hb⟩ := h a List.mem_cons_self
    rw [List.map_cons, parsed_list l (fun a ha => h a (List.mem_cons_of_mem _ ha)), List.filterMap_cons, hb]
    rfl

theorem parsed_mem {α γ : Type} {P : α → Except Err γ} {l : List α} {b : γ} : b ∈ (l.filterMap fun a => (P a).toOption) ↔ ∃ a ∈ l, P a = .ok b := by
  rw [List.mem_filterMap]
  have : ∀ r : Except Err γ, r.toOption = some b ↔ r = .ok b := by
    intro r
    cases r with
    | error e => exact ⟨fun h => (nomatch h), fun h => (nomatch h)⟩
    | ok x => exact ⟨fun h => by injection h with h; rw [h], fun h => by injection h with h; rw [h]; rfl⟩
  simp only [this]

section
variable {κ β : Type} {T : DictType κ β} {okK : κ → Prop} {encK : κ → Bits} {okV : β → Prop} {R : β → Enc Cell → Prop} {enc : β → Enc Cell} {H : β → Sl → Prop}

theorem parseOpt_ok (h : Typed T okK encK okV H) {o : Option β} {r : Option Sl} (he : EntryIs H o r) : T.parseOpt r = .ok o := by
  cases r with
  | none =>
    cases o with
    | none => rfl
    | some v => exact he.elim
  | some s =>
    obtain ⟨v, rfl, hv⟩ := entryIs_some he
    show (T.parse s).map some = _
    rw [h.parse v s hv]
    rfl

theorem parseUnion_ok (h : Typed T okK encK okV H) {ml mr : DMap} {tl tr : κ → Option β} (hl : MapIs T.key.bits okK encK H ml tl)
    (hr : MapIs T.key.bits okK encK H mr tr) {x : κ} (hx : okK x) : T.parseUnion (encK x, ml (encK x), mr (encK x)) = .ok (x, tl x, tr x) := by
  unfold DictType.parseUnion
  dsimp only
  rw [h.parseKey hx, parseOpt_ok h (hl.2 x hx), parseOpt_ok h (hr.2 x hx)]
  rfl

theorem typed_union (h : Typed T okK encK okV H) {ml mr : DMap} {tl tr : κ → Option β} (hl : MapIs T.key.bits okK encK H ml tl)
    (hr : MapIs T.key.bits okK encK H mr tr) {rev s : Bool} {u : List UnionItem} (hu : UnionListing rev s T.key.bits ml mr u) :
    (∀ a ∈ u, ∃ b, T.parseUnion a = .ok b) ∧ TUnion okK encK rev s tl tr (u.filterMap fun a => (T.parseUnion a).toOption) := by
  have key : ∀ p ∈ u, ∃ x, okK x ∧ p = (encK x, ml (encK x), mr (encK x)) ∧ ¬ (tl x = none ∧ tr x = none) := by
    rintro ⟨k, a, b⟩ hp
    obtain ⟨h1, rfl, rfl, h4⟩ := (hu.2 k a b).mp hp
    have hx : ∃ x, okK x ∧ encK x = k := by
      rcases h4 with h4 | h4
      · obtain ⟨v, hv⟩ := Option.ne_none_iff_exists'.mp h4
        exact hl.1 k v h1 hv
      · obtain ⟨v, hv⟩ := Option.ne_none_iff_exists'.mp h4
        exact hr.1 k v h1 hv
    obtain ⟨x, hx, rfl⟩ := hx
    refine ⟨x, hx, rfl, fun ⟨e1, e2⟩ => ?_⟩
    have g1 := entryIs_isSome (hl.2 x hx)
    have g2 := entryIs_isSome (hr.2 x hx)
    rw [e1] at g1
    rw [e2] at g2
    rcases h4 with h4 | h4
    · exact h4 (Option.isNone_iff_eq_none.mp (by rw [← Option.not_isSome, g1]; rfl))
    · exact h4 (Option.isNone_iff_eq_none.mp (by rw [← Option.not_isSome, g2]; rfl))
  refine ⟨fun p hp => ?_, ?_, fun x a b => ?_⟩
  · obtain ⟨x, hx, rfl, _⟩ := key p hp
    exact ⟨_, parseUnion_ok h hl hr hx⟩
  · rw [List.pairwise_filterMap]
    refine hu.1.imp_of_mem fun {p q} hp hq hpq b hb b' hb' => ?_
    obtain ⟨x, hx, rfl, _⟩ := key p hp
    obtain ⟨y, hy, rfl, _⟩ := key q hq
    rw [parseUnion_ok h hl hr hx] at hb
    rw [parseUnion_ok h hl hr hy] at hb'
    injection hb with hb
    injection hb' with hb'
    subst hb
    subst hb'
    exact hpq
  · rw [parsed_mem]
    constructor
    · rintro ⟨p, hp, e⟩
      obtain ⟨y, hy, rfl, hne⟩ := key p hp
      rw [parseUnion_ok h hl hr hy] at e
      have e := Except.ok.inj e
      obtain ⟨rfl, e2⟩ := Prod.mk.inj e
      obtain ⟨rfl, rfl⟩ := Prod.mk.inj e2
      exact ⟨hy, rfl, rfl, hne⟩
    · rintro ⟨hx, rfl, rfl, hne⟩
      refine ⟨_, (hu.2 _ _ _).mpr ⟨(h.keyOf hx).2, rfl, rfl, ?_⟩, parseUnion_ok h hl hr hx⟩
      have g1 := entryIs_isSome (hl.2 x hx)
      have g2 := entryIs_isSome (hr.2 x hx)
      refine Classical.byContradiction fun hc => hne ?_
      rw [not_or, Classical.not_not, Classical.not_not] at hc
      rw [hc.1] at g1
      rw [hc.2] at g2
      exact ⟨Option.isNone_iff_eq_none.mp (by rw [← Option.not_isSome, ← g1]; rfl), Option.isNone_iff_eq_none.mp (by rw [← Option.not_isSome, ← g2]; rfl)⟩

/-- Raw and typed entries, one by one. -/
theorem parsed_entries (h : Typed T okK encK okV H) {m : DMap} {tm : κ → Option β} (hm : MapIs T.key.bits okK encK H m tm) {rev s : Bool}
    {l : List (Bits × Sl)} (hl : Listing rev s T.key.bits m l) :
    ∃ l', TListing okK encK rev s tm l' ∧ l.map (fun p => T.parseKey p.1) = l'.map (fun q => .ok q.1) ∧ l.map (fun p => T.parse p.2) = l'.map (fun q => .ok q.2) := by
  refine ⟨_, typed_listing h hm hl, ?_⟩
  have hin : ∀ p ∈ l, p.1.length = T.key.bits ∧ m p.1 = some p.2 := fun p hp => (hl.2 p.1 p.2).mp hp
  clear hl
  induction l with
  | nil => exact ⟨rfl, rfl⟩
  | cons p l ih =>
    obtain ⟨i1, i2⟩ := ih (fun p hp => hin p (List.mem_cons_of_mem _ hp))
    obtain ⟨x, v, hx, ex, hv, hh, e⟩ := parseEntry_ok h hm (hin p List.mem_cons_self).1 (hin p List.mem_cons_self).2
    rw [List.filterMap_cons, e]
    dsimp only [Except.toOption]
    rw [List.map_cons, List.map_cons, List.map_cons, List.map_cons, i1, i2, ← ex, h.parseKey hx, h.parse v _ hh]
    exact ⟨rfl, rfl⟩

/-! ### Property theorems -/

/-- C57: the keys of a dictionary come once each and in order, forwards and backwards, unsigned and signed. -/
theorem C57_keys (hK : KeyCodes T.key okK encK) (hb : T.key.bits ≤ 1023) (hV : Codes okV T.store T.load R enc)
    (hf : ∀ v, okV v → (enc v).Fits) (acc : Cell → Bool) {d : Option Cell} {tm : κ → Option β} (hd : IsDict T okK encK R acc d tm) (rev s : Bool) :
    ∃ l, TListing okK encK rev s tm l ∧ Yields T.nextKey (RawIter.new d T.key.bits rev s) (l.map fun p => .ok p.1) := by
  obtain ⟨m, h1, h2⟩ := hd
  obtain ⟨l0, g1, g2⟩ := C24_iter acc hb h1 rev s
  obtain ⟨l, t1, t2, _⟩ := parsed_entries (typed_holds hK hb hV hf) h2 g1
  refine ⟨l, t1, ?_⟩
  have := typedParsed_yields (next := RawIter.next) (next' := T.nextKey) (P := fun p => T.parseKey p.1) (l' := l.map (·.1))
    (fun it it' e => by unfold DictType.nextKey; rw [e])
    (fun it it' a b e eb => by unfold DictType.nextKey; rw [e]; dsimp only at eb ⊢; rw [eb]) g2 (by rw [t2, List.map_map]; rfl)
  rw [List.map_map] at this
  exact this

/-- C57: the values come in the order of the keys, forwards and backwards. (With the signed order they do not: `C32_signed_order_wrong`.) -/
theorem C57_values (hK : KeyCodes T.key okK encK) (hb : T.key.bits ≤ 1023) (hV : Codes okV T.store T.load R enc)
    (hf : ∀ v, okV v → (enc v).Fits) (acc : Cell → Bool) {d : Option Cell} {tm : κ → Option β} (hd : IsDict T okK encK R acc d tm) (rev : Bool) :
    ∃ l, TListing okK encK rev false tm l ∧ Yields T.nextValue (RawValues.new d T.key.bits rev false) (l.map fun p => .ok p.2) := by
  obtain ⟨m, h1, h2⟩ := hd
  obtain ⟨l0, g1, g2⟩ := C32_values_unsigned_partial acc hb h1 rev
  obtain ⟨l, t1, _, t2⟩ := parsed_entries (typed_holds hK hb hV hf) h2 g1
  refine ⟨l, t1, ?_⟩
  have := typedParsed_yields (next := RawValues.next) (next' := T.nextValue) (P := T.parse) (l := l0.map (·.2)) (l' := l.map (·.2))
    (fun it it' e => by unfold DictType.nextValue; rw [e])
    (fun it it' a b e eb => by unfold DictType.nextValue; rw [e]; dsimp only at eb ⊢; rw [eb])
    (by rw [List.map_map]; exact g2) (by rw [List.map_map, List.map_map]; exact t2)
  rw [List.map_map] at this
  exact this

/-- C57: the union of two typed dictionaries gives every key of either one exactly once, in order, with the values of both, and ends. -/
theorem C57_union (hK : KeyCodes T.key okK encK) (hb : T.key.bits ≤ 1023) (hV : Codes okV T.store T.load R enc)
    (hf : ∀ v, okV v → (enc v).Fits) (acc : Cell → Bool) {dl dr : Option Cell} {tl tr : κ → Option β} (hl : IsDict T okK encK R acc dl tl)
    (hr : IsDict T okK encK R acc dr tr) (rev s : Bool) :
    ∃ u, TUnion okK encK rev s tl tr u ∧ Yields T.nextUnion (UnionIter.new dl dr T.key.bits rev s) (u.map .ok) := by
  obtain ⟨ml, l1, l2⟩ := hl
  obtain ⟨mr, r1, r2⟩ := hr
  obtain ⟨u, g1, g2⟩ := C35_union acc hb l1 r1 rev s
  obtain ⟨t1, t2⟩ := typed_union (typed_holds hK hb hV hf) l2 r2 g1
  exact ⟨_, t2, typedParsed_yields (next := UnionIter.next) (P := T.parseUnion)
    (fun it it' e => by unfold DictType.nextUnion; rw [e])
    (fun it it' a b e eb => by unfold DictType.nextUnion; rw [e]; dsimp only; rw [eb]) g2 (parsed_list u t1)⟩

end

/-- C57: also the iterators over keys, values and unions stop for good after an error, whatever the cells are. -/
theorem C57_stops_all {κ β : Type} (T : DictType κ β) (k : Nat) :
    (∀ it l r e, runIter T.nextKey k it = l ++ .error e :: r → r = []) ∧ (∀ it l r e, runIter T.nextValue k it = l ++ .error e :: r → r = []) ∧
    (∀ it l r e, runIter T.nextUnion k it = l ++ .error e :: r → r = []) := by
  refine ⟨fun it l r e => runIter_stops ?_ k it l r e, fun it l r e => runIter_stops ?_ k it l r e, fun it l r e => runIter_stops ?_ k it l r e⟩
  · have hbroken : ∀ it : RawIter, it.status = .broken → (T.nextKey it).1 = none := by
      intro it h; unfold DictType.nextKey RawIter.next; rw [h]
    have hraw : ∀ (it : RawIter) e it', it.next = (some (.error e), it') → it'.status = .broken := by
      intro it e it' h
      unfold RawIter.next at h
      split at h
      · obtain ⟨_, rfl⟩ := Prod.mk.inj h; rfl
      · cases h
      · split at h
        · obtain ⟨_, rfl⟩ := Prod.mk.inj h; rfl
        · cases h
        · cases h
    intro it e it' h
    refine hbroken it' ?_
    unfold DictType.nextKey at h
    split at h
    · cases h
    · rename_i hn
      obtain ⟨h1, rfl⟩ := Prod.mk.inj h
      exact hraw _ _ _ hn
    · split at h
      · obtain ⟨h1, _⟩ := Prod.mk.inj h; cases h1
      · obtain ⟨_, rfl⟩ := Prod.mk.inj h; rfl
  · have hbroken : ∀ it : RawValues, it.status = .broken → (T.nextValue it).1 = none := by
      intro it h; unfold DictType.nextValue RawValues.next; rw [h]
    have hraw : ∀ (it : RawValues) e it', it.next = (some (.error e), it') → it'.status = .broken := by
      intro it e it' h
      unfold RawValues.next at h
      split at h
      · obtain ⟨_, rfl⟩ := Prod.mk.inj h; rfl
      · cases h
      · split at h
        · obtain ⟨_, rfl⟩ := Prod.mk.inj h; rfl
        · cases h
        · cases h
    intro it e it' h
    refine hbroken it' ?_
    unfold DictType.nextValue at h
    split at h
    · cases h
    · rename_i hn
      obtain ⟨h1, rfl⟩ := Prod.mk.inj h
      exact hraw _ _ _ hn
    · split at h
      · obtain ⟨h1, _⟩ := Prod.mk.inj h; cases h1
      · obtain ⟨_, rfl⟩ := Prod.mk.inj h; rfl
  · intro it e it' h
    unfold DictType.nextUnion at h
    split at h
    · cases h
    · rename_i e' it2 hn
      obtain ⟨h1, rfl⟩ := Prod.mk.inj h
      have := yieldsT_nil (C35_error_ends it it2 e' hn)
      unfold DictType.nextUnion
      rw [show it2.next = (none, it2.next.2) from Prod.ext this.1 rfl]
    · split at h
      · obtain ⟨h1, _⟩ := Prod.mk.inj h; cases h1
      · obtain ⟨_, rfl⟩ := Prod.mk.inj h
        rfl

/-- C57: no typed iterator ends silently: it ends exactly where the untyped one does, an error of the latter and an item that cannot be
read are both reported. -/
theorem C57_ends_all {κ β : Type} (T : DictType κ β) :
    (∀ it, (T.nextKey it).1 = none ↔ it.next.1 = none) ∧ (∀ it, (T.nextValue it).1 = none ↔ it.next.1 = none) ∧ (∀ it, (T.nextUnion it).1 = none ↔ it.next.1 = none) ∧
    (∀ it e, it.next.1 = some (.error e) → (T.nextKey it).1 = some (.error e)) ∧ (∀ it e, it.next.1 = some (.error e) → (T.nextValue it).1 = some (.error e)) ∧
    (∀ it e, it.next.1 = some (.error e) → (T.nextUnion it).1 = some (.error e)) := by
  refine ⟨fun it => ?_, fun it => ?_, fun it => ?_, fun it e h => ?_, fun it e h => ?_, fun it e h => ?_⟩
  · unfold DictType.nextKey
    rcases it.next with ⟨_ | ⟨_ | p⟩, it'⟩
    · exact ⟨fun _ => rfl, fun _ => rfl⟩
    · exact ⟨(fun h => nomatch h), (fun h => nomatch h)⟩
    · dsimp only
      cases T.parseKey p.1 <;> exact ⟨(fun h => nomatch h), (fun h => nomatch h)⟩
  · unfold DictType.nextValue
    rcases it.next with ⟨_ | ⟨_ | p⟩, it'⟩
    · exact ⟨fun _ => rfl, fun _ => rfl⟩
    · exact ⟨(fun h => nomatch h), (fun h => nomatch h)⟩
    · dsimp only
      cases T.parse p <;> exact ⟨(fun h => nomatch h), (fun h => nomatch h)⟩
  · unfold DictType.nextUnion
    rcases it.next with ⟨_ | ⟨_ | p⟩, it'⟩
    · exact ⟨fun _ => rfl, fun _ => rfl⟩
    · exact ⟨(fun h => nomatch h), (fun h => nomatch h)⟩
    · dsimp only
      cases T.parseUnion p <;> exact ⟨(fun h => nomatch h), (fun h => nomatch h)⟩
  · unfold DictType.nextKey
    rcases hn : it.next with ⟨o, it'⟩
    rw [hn] at h; cases h; rfl
  · unfold DictType.nextValue
    rcases hn : it.next with ⟨o, it'⟩
    rw [hn] at h; cases h; rfl
  · unfold DictType.nextUnion
    rcases hn : it.next with ⟨o, it'⟩
    rw [hn] at h; cases h; rfl

/-! ### Non-vacuity -/

/-- The union of two dictionaries `Dict<u8, u16>` with one common key. -/
example : (match dictU8U16.build (fun _ => true) [(1, 10), (7, 20), (200, 30)], dictU8U16.build (fun _ => true) [(7, 21), (9, 5)] with
    | .ok a, .ok b => decide ((runIter dictU8U16.nextUnion 9 (UnionIter.new a b 8 true false)).map (·.toOption) =
        [some (200, some 30, none), some (9, none, some 5), some (7, some 20, some 21), some (1, some 10, none)] ∧
      (runIter dictU8U16.nextKey 9 (RawIter.new a 8 false true)).map (·.toOption) = [some 200, some 1, some 7] ∧
      (runIter dictU8U16.nextValue 9 (RawValues.new a 8 true false)).map (·.toOption) = [some 30, some 20, some 10])
    | _, _ => false) = true := by decide +kernel

/-- A value that cannot be read ends the iteration with an error. -/
example : ((runIter dictU8U16.nextUnion 9 (UnionIter.new unreadableDict unreadableDict 8 false false)).map (·.toOption), (runIter dictU8U16.nextKey 9 (RawIter.new unreadableDict 8 false false)).map (·.toOption),
      (runIter dictU8U16.nextValue 9 (RawValues.new unreadableDict 8 false false)).map (·.toOption)) =
    ([none], [some 5], [none]) := by decide +kernel

end Verif
