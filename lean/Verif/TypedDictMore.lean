import Verif.TypedDictProps
import Verif.DictDefault
/-
Typed dictionaries: building from sorted entries, histories without errors, an unreadable value.
-/
set_option linter.unusedVariables false
set_option linter.unusedSimpArgs false
namespace Verif

section
variable {κ β : Type} {T : DictType κ β} {okK : κ → Prop} {encK : κ → Bits} {okV : β → Prop} {R : β → Enc Cell → Prop} {enc : β → Enc Cell}

/-! ### Lemmas -/

/-- The value of the first entry with this key. -/
def firstOf [DecidableEq κ] : List (κ × β) → κ → Option β
  | [], _ => none
  | (k, v) :: es, x => if x = k then some v else firstOf es x

def slOf (e : Enc Cell) : Sl := ⟨e.1, e.2⟩

theorem rawEntries_ok (hK : KeyCodes T.key okK encK) (hb : T.key.bits ≤ 1023) (hV : Codes okV T.store T.load R enc)
    (hf : ∀ v, okV v → (enc v).Fits) : ∀ (es : List (κ × β)), (∀ e ∈ es, okK e.1 ∧ okV e.2) →
    T.rawEntries es = .ok (es.map (fun e => (encK e.1, slOf (enc e.2))))
  | [], _ => rfl
  | (k, v) :: es, h => by
    have h0 := h (k, v) List.mem_cons_self
    have ih := rawEntries_ok hK hb hV hf es fun e he => h e (List.mem_cons_of_mem _ he)
    have h1 := ((typed_exactly hK hb hV hf).keyOf h0.1).1
    have h2 := valueOf_ok (T := T) hV h0.2 (hf v h0.2)
    show (T.keyOf k >>= fun key => T.valueOf v >>= fun s => T.rawEntries es >>= fun rest => Except.ok ((key, s) :: rest)) = _
    rw [h1, h2, ih]
    rfl

theorem mapIs_entryOf [DecidableEq κ] (hK : KeyCodes T.key okK encK) (hb : T.key.bits ≤ 1023) (hV : Codes okV T.store T.load R enc)
    (hf : ∀ v, okV v → (enc v).Fits) : ∀ (es : List (κ × β)), (∀ e ∈ es, okK e.1 ∧ okV e.2) →
    MapIs T.key.bits okK encK (IsExactly okV enc) (entryOf (es.map (fun e => (encK e.1, slOf (enc e.2))))) (firstOf es)
  | [], _ => ⟨fun k s _ h => (by cases h), fun x _ => trivial⟩
  | (k, v) :: es, h => by
    have h0 := h (k, v) List.mem_cons_self
    have ih := mapIs_entryOf hK hb hV hf es fun e he => h e (List.mem_cons_of_mem _ he)
    exact ih.put (typed_exactly hK hb hV hf) h0.1 (o := some v) (r := some (slOf (enc v))) ⟨h0.2, hf v h0.2, rfl⟩

/-- What happens to a map in a history. -/
def TOp.specAll [DecidableEq κ] (tm : κ → Option β) : List (TOp κ β) → List (TOut β) × (κ → Option β)
  | [] => ([], tm)
  | op :: ops => ((op.spec tm).1 :: (TOp.specAll (op.spec tm).2 ops).1, (TOp.specAll (op.spec tm).2 ops).2)

/-- The same operations on a dictionary. -/
def TOp.runAll (T : DictType κ β) (acc : Cell → Bool) (d : Option Cell) : List (TOp κ β) → List (Except Err (TOut β)) × Option Cell
  | [] => ([], d)
  | op :: ops => ((op.run T acc d).1 :: (TOp.runAll T acc (op.run T acc d).2 ops).1, (TOp.runAll T acc (op.run T acc d).2 ops).2)

/-- A changed map has a dictionary if all tries over such values can be built. -/
theorem typed_representable [DecidableEq κ] (hK : KeyCodes T.key okK encK) (hb : T.key.bits ≤ 1023) (hV : Codes okV T.store T.load R enc)
    (hf : ∀ v, okV v → (enc v).Fits) {acc : Cell → Bool} {Q : Sl → Prop} (hfit : FitsAll acc T.key.bits Q)
    (hQ : ∀ v s, IsExactly okV enc v s → Q s) {d : Option Cell} {tm : κ → Option β} (hd : IsDictC T okK encK okV enc acc d tm)
    {x : κ} (hx : okK x) (o : Option β) (ho : ∀ v, o = some v → okV v) :
    ∃ d', IsDictC T okK encK okV enc acc d' (fun k => if k = x then o else tm k) := by
  have ht := typed_exactly hK hb hV hf
  obtain ⟨m, h1, h2⟩ := hd
  have hv : ∀ k v, k.length = T.key.bits → m k = some v → Q v := by
    intro k s hk hs
    obtain ⟨y, hy, ey⟩ := h2.1 k s hk hs
    have := h2.2 y hy
    rw [ey, hs] at this
    obtain ⟨v, _, hh⟩ := entryIs_some this
    exact hQ v s hh
  cases o with
  | none =>
    obtain ⟨d', h'⟩ := representable_del hfit h1 hv (ht.keyOf hx).2
    exact ⟨d', _, h', h2.put ht hx trivial⟩
  | some v =>
    have hex : IsExactly okV enc v (slOf (enc v)) := ⟨ho v rfl, hf v (ho v rfl), rfl⟩
    obtain ⟨d', h'⟩ := representable_put hfit h1 hv (ht.keyOf hx).2 (hQ v _ hex)
    exact ⟨d', _, h', h2.put ht hx hex⟩

/-! ### Property theorems -/

/-- Building from entries in ascending order of their keys gives the canonical dictionary of these entries (of several entries with the
same key the first counts). It fails only if there is no such dictionary. -/
theorem C57_build [DecidableEq κ] (hK : KeyCodes T.key okK encK) (hb : T.key.bits ≤ 1023) (hV : Codes okV T.store T.load R enc)
    (hf : ∀ v, okV v → (enc v).Fits) (acc : Cell → Bool) (es : List (κ × β)) (hes : ∀ e ∈ es, okK e.1 ∧ okV e.2)
    (hasc : es.Pairwise (fun a b => lexBits (encK a.1) (encK b.1) ≠ .gt)) :
    (∃ d, T.build acc es = .ok d ∧ IsDictC T okK encK okV enc acc d (firstOf es)) ∨
    ((∃ e, T.build acc es = .error e) ∧ ¬ ∃ d, IsDictC T okK encK okV enc acc d (firstOf es)) := by
  have hm := mapIs_entryOf hK hb hV hf es hes
  have hbuild : T.build acc es = buildDict none acc T.key.bits lexBits (es.map (fun e => (encK e.1, slOf (enc e.2)))) := by
    unfold DictType.build
    rw [rawEntries_ok hK hb hV hf es hes]
    rfl
  have hc := C27_build none acc hb (es.map (fun e => (encK e.1, slOf (enc e.2)))) (fun e he => by
      obtain ⟨e', he', rfl⟩ := List.mem_map.mp he
      exact ((typed_exactly hK hb hV hf).keyOf (hes e' he').1).2) (by
      unfold Ascending
      rw [List.pairwise_map]
      exact hasc)
  rw [hbuild]
  cases hx : buildDict none acc T.key.bits lexBits (es.map (fun e => (encK e.1, slOf (enc e.2)))) with
  | ok d =>
    rw [hx] at hc
    exact Or.inl ⟨d, rfl, _, (representsX_none _ _ _ _).mp hc, hm⟩
  | error e =>
    rw [hx] at hc
    refine Or.inr ⟨⟨e, rfl⟩, ?_⟩
    rintro ⟨d, m, h1, h2⟩
    refine hc d ((representsX_none _ _ _ _).mpr (representsC_congr h1 ?_))
    exact mapIs_unique hm h2 fun _ _ => rfl

/-- In a context that builds all shallow trees of ordinary cells (the default one), with values without references that leave room for
a label, no operation ever fails: all results of any history are those of the map, and so is the final dictionary. -/
theorem C57_no_errors [DecidableEq κ] (hK : KeyCodes T.key okK encK) (hV : Codes okV T.store T.load R enc) {B : Nat}
    (hB : 2 + bitsForLen T.key.bits + T.key.bits + B ≤ 1023) (hf : ∀ v, okV v → (enc v).1.length ≤ B ∧ (enc v).2 = []) {acc : Cell → Bool}
    (hacc : AcceptsTame acc) {d : Option Cell} {tm : κ → Option β} (hd : IsDictC T okK encK okV enc acc d tm)
    (ops : List (TOp κ β)) (hops : ∀ op ∈ ops, op.Ok okK okV) :
    (TOp.runAll T acc d ops).1 = (TOp.specAll tm ops).1.map .ok ∧
    IsDictC T okK encK okV enc acc (TOp.runAll T acc d ops).2 (TOp.specAll tm ops).2 := by
  have hf' : ∀ v, okV v → (enc v).Fits := fun v hv => ⟨by have := (hf v hv).1; omega, by rw [(hf v hv).2]; exact Nat.zero_le _⟩
  have hb : T.key.bits ≤ 1023 := by omega
  have hQ : ∀ v s, IsExactly okV enc v s → BitsVal B s := by
    intro v s hs
    have e1 : s.bits = (enc v).1 := congrArg Prod.fst hs.2.2
    have e2 : s.refs = (enc v).2 := congrArg Prod.snd hs.2.2
    exact ⟨by rw [e1]; exact (hf v hs.1).1, by rw [e2]; exact (hf v hs.1).2⟩
  have hfit := fitsAll_bits hacc hB
  induction ops generalizing d tm with
  | nil => exact ⟨rfl, hd⟩
  | cons op ops ih =>
    have hop := hops op List.mem_cons_self
    have hex : op.writes → ∃ d', IsDictC T okK encK okV enc acc d' (op.spec tm).2 := by
      intro hw
      cases op with
      | get k => exact hw.elim
      | contains k => exact hw.elim
      | insert mode k v =>
        simp only [TOp.spec]
        split
        · exact typed_representable hK hb hV hf' hfit hQ hd hop.1 (some v) fun v' e => by injection e with e; exact e ▸ hop.2
        · exact ⟨d, hd⟩
      | remove k => exact typed_representable hK hb hV hf' hfit hQ hd hop none fun v' e => by cases e
    rcases C57_step hK hb hV hf' acc hd op hop with ⟨h1, h2⟩ | ⟨hw, _, _, hn⟩
    · obtain ⟨g1, g2⟩ := ih h2 fun o ho => hops o (List.mem_cons_of_mem _ ho)
      refine ⟨?_, g2⟩
      show (op.run T acc d).1 :: _ = Except.ok (op.spec tm).1 :: _
      rw [h1, g1]
    · exact absurd (hex hw) hn

end

/-- `Dict<u8, u16>` -/
def dictU8U16 : DictType Nat Nat := ⟨Key.u8, Wr.u16, Rd.u16⟩

/-- What a history returns, in a form that can be compared. -/
def outcomes {β : Type} (l : List (Except Err (TOut β))) : List (Option (TOut β)) := l.map (·.toOption)

/-- Non-vacuity of C57: a history of `Dict<u8, u16>` and what it returns; the hypotheses hold for this type. -/
example : outcomes (TOp.runAll dictU8U16 (fun _ => true) none
      [.insert .add 5 700, .insert .set 133 9, .insert .add 5 1, .get 5, .insert .replace 6 1, .contains 133, .remove 133, .get 133]).1 =
    [some (.flag true), some (.flag true), some (.flag false), some (.value (some 700)), some (.flag false), some (.flag true),
      some (.value (some 9)), some (.value none)] := by
  decide +kernel

example : KeyCodes dictU8U16.key (fun v => v < 2 ^ 8) (natBits 8) ∧ dictU8U16.key.bits ≤ 1023 ∧
    2 + bitsForLen dictU8U16.key.bits + dictU8U16.key.bits + 16 ≤ 1023 ∧
    Codes (fun v => v < 2 ^ 16) dictU8U16.store dictU8U16.load (Canon (fun v => v < 2 ^ 16) fun v => Enc.bits (natBits 16 v)) (fun v => Enc.bits (natBits 16 v)) ∧
    (∀ v, v < 2 ^ 16 → (Enc.bits (natBits 16 v) : Enc Cell).1.length ≤ 16 ∧ (Enc.bits (natBits 16 v) : Enc Cell).2 = []) ∧
    (AcceptsTame fun _ => true) :=
  ⟨C56_keys.2.1, by decide, by decide, Codes.u16, fun v _ => ⟨Nat.le_of_eq (natBits_length _ _), rfl⟩, fun _ _ => rfl⟩

/-- Building from three ascending entries, and the entries that iteration yields. -/
example : ((dictU8U16.build (fun _ => true) [(1, 10), (7, 20), (200, 30)]).toOption.map
      fun d => (dictU8U16.entries d).map (·.toOption)) = some [some (1, 10), some (7, 20), some (200, 30)] := by
  decide +kernel

/-- A dictionary with the 8-bit value `0xff` under the key 5, read as `Dict<u8, u16>`. -/
def unreadableDict : Option Cell := (dictInsert (fun _ => true) none (natBits 8 5) 8 ⟨natBits 8 255, []⟩ .set).2

/-- Wrong: `remove` on a value that cannot be read as the value type reports an error, but the entry is gone; after the same error `get`
leaves it. -/
theorem C57_remove_unreadable :
    (dictU8U16.remove (fun _ => true) unreadableDict 5).1.toOption = none ∧ (dictU8U16.remove (fun _ => true) unreadableDict 5).2.isNone = true ∧
    unreadableDict.isSome = true ∧ (dictU8U16.get unreadableDict 5).toOption = none ∧
    (dictU8U16.contains unreadableDict 5).toOption = some true := by
  decide +kernel

/-- In a run of an iterator that is over after an error, only the last item can be an error. -/
theorem runIter_stops {σ α : Type} {next : σ → Option (Except Err α) × σ} (h : ∀ it e it', next it = (some (.error e), it') → (next it').1 = none) :
    ∀ (k : Nat) (it : σ) (l r : List (Except Err α)) (e : Err), runIter next k it = l ++ .error e :: r → r = []
  | 0, it, l, r, e, hr => by cases l <;> cases hr
  | k + 1, it, l, r, e, hr => by
    unfold runIter at hr
    generalize hn : next it = out at hr
    obtain ⟨x, it'⟩ := out
    cases x with
    | none => cases l <;> cases hr
    | some x =>
      dsimp only at hr
      cases l with
      | nil =>
        rw [List.nil_append] at hr
        injection hr with h1 h2
        subst h1
        have hb := h it e it' hn
        cases k with
        | zero => exact h2.symm
        | succ k =>
          unfold runIter at h2
          generalize next it' = out at h2 hb
          obtain ⟨y, it2⟩ := out
          dsimp only at hb
          subst hb
          exact h2.symm
      | cons y l =>
        rw [List.cons_append] at hr
        injection hr with _ h2
        exact runIter_stops h k it' l r e h2

/-- C57: iteration over anything - a malformed dictionary, or one with values of another type - stops after the first error: whatever the
typed iterator, or the raw one, has yielded, only the last item can be an error. -/
theorem C57_stops {κ β : Type} (T : DictType κ β) (it : RawIter) (k : Nat) :
    (∀ l r e, runIter T.next k it = l ++ .error e :: r → r = []) ∧ (∀ l r e, runIter RawIter.next k it = l ++ .error e :: r → r = []) := by
  have hbroken : ∀ it : RawIter, it.status = .broken → it.next.1 = none := by
    intro it h; unfold RawIter.next; rw [h]
  have hraw : ∀ (it : RawIter) e it', it.next = (some (.error e), it') → it'.status = .broken := by
    intro it e it' h
    unfold RawIter.next at h
    split at h
    · obtain ⟨_, rfl⟩ := Prod.mk.inj h; rfl
    · cases h
    · split at h
      · obtain ⟨_, rfl⟩ := Prod.mk.inj h; rfl
      · cases h
      · cases h
  refine ⟨fun l r e => runIter_stops ?_ k it l r e, fun l r e => runIter_stops (fun it e it' h => hbroken _ (hraw it e it' h)) k it l r e⟩
  intro it e it' h
  have hs : it'.status = .broken := by
    unfold DictType.next at h
    split at h
    · cases h
    · rename_i e' it2 hn
      obtain ⟨_, rfl⟩ := Prod.mk.inj h
      exact hraw _ _ _ hn
    · split at h
      · cases h
      · obtain ⟨_, rfl⟩ := Prod.mk.inj h; rfl
  have hn := hbroken it' hs
  unfold DictType.next
  generalize it'.next = out at hn
  obtain ⟨x, it2⟩ := out
  dsimp only at hn
  subst hn
  rfl

/-- The unreadable entry is reported once. -/
example : (dictU8U16.entries unreadableDict).map (·.toOption) = [none] := by decide +kernel

end Verif
