import Verif.DictAugModify
import Verif.DictAugTypes
import Verif.DictFindProps
import Verif.TypedDictMore
/-!
# C34: failing operations, the rest of the API

The functions over roots of dictionaries (`augInsert`, `augRemove`, `modifyDict`) leave the root as it was whenever they fail, on any cells.
The methods that do more after such a function can fail with the change done: exactly when the removed entry is not readable as the types
of the dictionary say, or when the root of the new tree holds no readable extra. Both happen; so does a merge that stops half-way
(`C31_not_atomic`).
-/
set_option linter.unusedVariables false
set_option linter.unusedSimpArgs false
namespace Verif

/-! ### Specification -/

/-- An operation that left `after` in place of `before` and returned `res` did not fail with a change. -/
def Unchanged {α σ : Type} (before : σ) (r : Except Err α × σ) : Prop := ∀ e, r.1 = .error e → r.2 = before

/-! ### Theorems -/

/-- Insertion into the tree of an augmented dictionary: any cells, any key, any combination of extras (which may fail). -/
theorem C34_aug_insert (f : AugFn) (acc : Cell → Bool) (d : Option Cell) (key : Bits) (n : Nat) (v : Sl) (mode : SetMode) :
    Unchanged d (augInsert f acc d key n v mode) := by
  intro e h
  unfold augInsert at h ⊢
  by_cases hk : key.length ≠ n
  · rw [if_pos hk]
  · rw [if_neg hk] at h ⊢
    cases d with
    | none =>
      dsimp only at h ⊢
      by_cases hm : mode.canAdd = true
      · rw [if_pos hm] at h ⊢
        cases hl : makeLeaf acc key n v with
        | error e => rfl
        | ok c => rw [hl] at h; cases h
      · rw [if_neg hm]
    | some root =>
      dsimp only at h ⊢
      cases hg : augInsertGo f acc mode v (n + 1) key root [] with
      | error e => rfl
      | ok o =>
        cases o with
        | none => rfl
        | some p =>
          obtain ⟨leaf, stack⟩ := p
          rw [hg] at h
          dsimp only at h ⊢
          cases hr : rebuildX f acc stack leaf with
          | error e => rfl
          | ok c => rw [hr] at h; cases h

/-- Removal from the tree of an augmented dictionary. -/
theorem C34_aug_remove (f : AugFn) (acc : Cell → Bool) (d : Option Cell) (key : Bits) (n : Nat) (sub : Bool) :
    Unchanged d (augRemove f acc d key n sub) := by
  intro e h
  unfold augRemove at h ⊢
  by_cases hk : sub = false ∧ key.length ≠ n
  · rw [if_pos hk]
  · rw [if_neg hk] at h ⊢
    cases d with
    | none => rfl
    | some root =>
      dsimp only at h ⊢
      cases hg : dictFindRemove (key.length + 1) key root [] key.length with
      | error e => rfl
      | ok o =>
        cases o with
        | none => rfl
        | some r =>
          rw [hg] at h
          dsimp only at h ⊢
          cases hs : r.stack with
          | nil => rw [hs] at h; cases h
          | cons s stack =>
            rw [hs] at h
            dsimp only at h ⊢
            cases hb : rebuildRemoved acc s r.key.length r.prev with
            | error e => rfl
            | ok leaf =>
              rw [hb] at h
              dsimp only at h ⊢
              cases hr : rebuildX f acc stack leaf with
              | error e => rfl
              | ok c => rw [hr] at h; cases h

/-- A batch of modifications in one pass, plain or augmented: all of it or nothing. -/
theorem C34_modify (cmp : Comparator) (acc : Cell → Bool) (n : Nat) (ord : Bits → Bits → Ordering) (d : Option Cell) (es : List (Bits × Option Sl)) :
    Unchanged d (modifyDict cmp acc n ord d es) := by
  intro e h
  unfold modifyDict at h ⊢
  cases d with
  | none =>
    dsimp only at h ⊢
    cases hb : buildDict cmp acc n ord (es.filterMap (fun p => p.2.map (fun v => (p.1, v)))) with
    | error e => rfl
    | ok c => rw [hb] at h; cases h
  | some root =>
    dsimp only at h ⊢
    cases hb : modFull cmp acc n ord root es with
    | error e => rfl
    | ok o =>
      cases o with
      | none => rfl
      | some c => rw [hb] at h; cases h

/-- A method of an augmented dictionary that fails either changes nothing at all, or it has replaced the tree by one whose root holds no
readable extra, which is then the error; the stored root extra is the old one. -/
theorem C34_aug_dict_partial {A : Type} (T : AugType A) (acc : Cell → Bool) (n : Nat) (s : AugDict A) (op : AOp A) (e : Err)
    (h : (op.run T acc n s).1 = .error e) :
    (op.run T acc n s).2 = s ∨
    (T.rootExtra n (op.run T acc n s).2.root = .error e ∧ (op.run T acc n s).2.extra = s.extra) := by
  cases op with
  | get k => exact .inl rfl
  | insert mode k x v =>
    have ha := C34_aug_insert T.compAdd acc s.root k n ((T.store x).then v) mode
    have e1 : AOp.run T acc n s (.insert mode k x v) = ((s.insert T acc n mode k x v).1.map .flag, (s.insert T acc n mode k x v).2) := rfl
    rw [e1] at h ⊢
    dsimp only at h ⊢
    unfold AugDict.insert at h ⊢
    generalize augInsert T.compAdd acc s.root k n ((T.store x).then v) mode = out at *
    obtain ⟨r, d⟩ := out
    cases r with
    | error e' =>
      have hd : d = s.root := ha e' rfl
      subst hd
      exact .inl rfl
    | ok b =>
      cases b with
      | false => cases h
      | true =>
        dsimp only at h ⊢
        cases hx : T.rootExtra n d with
        | error e' =>
          rw [hx] at h
          dsimp only [Except.map] at h ⊢
          injection h with h
          exact .inr ⟨by rw [← h]; exact hx, rfl⟩
        | ok x => rw [hx] at h; cases h
  | remove k =>
    have ha := C34_aug_remove T.compAdd acc s.root k n false
    have e1 : AOp.run T acc n s (.remove k) = ((s.remove T acc n k).1.map .value, (s.remove T acc n k).2) := rfl
    rw [e1] at h ⊢
    dsimp only at h ⊢
    unfold AugDict.remove at h ⊢
    generalize augRemove T.compAdd acc s.root k n false = out at *
    obtain ⟨r, d⟩ := out
    cases r with
    | error e' =>
      have hd : d = s.root := ha e' rfl
      subst hd
      exact .inl rfl
    | ok b =>
      cases b with
      | none => cases h
      | some v =>
        dsimp only at h ⊢
        cases hx : T.rootExtra n d with
        | error e' =>
          rw [hx] at h
          dsimp only [Except.map] at h ⊢
          injection h with h
          exact .inr ⟨by rw [← h]; exact hx, rfl⟩
        | ok x => rw [hx] at h; cases h

/-- The same for a batch of modifications of an augmented dictionary. -/
theorem C34_aug_modify_partial {A : Type} (T : AugType A) (acc : Cell → Bool) (n : Nat) (s : AugDict A) (es : List (Bits × Option (A × Sl))) (e : Err)
    (h : (s.modify T acc n es).1 = .error e) :
    (s.modify T acc n es).2 = s ∨
    (T.rootExtra n (s.modify T acc n es).2.root = .error e ∧ (s.modify T acc n es).2.extra = s.extra) := by
  have ha := C34_modify (some T.compAdd) acc n lexBits s.root (es.map fun e => (e.1, e.2.map fun p => (T.store p.1).then p.2))
  unfold AugDict.modify at h ⊢
  generalize modifyDict (some T.compAdd) acc n lexBits s.root (es.map fun e => (e.1, e.2.map fun p => (T.store p.1).then p.2)) = out at *
  obtain ⟨r, d⟩ := out
  cases r with
  | error e' =>
    have hd : d = s.root := ha e' rfl
    subst hd
    exact .inl rfl
  | ok b =>
    cases b with
    | false => cases h
    | true =>
      dsimp only at h ⊢
      cases hx : T.rootExtra n d with
      | error e' =>
        rw [hx] at h
        dsimp only at h ⊢
        injection h with h
        exact .inr ⟨by rw [← h]; exact hx, rfl⟩
      | ok x => rw [hx] at h; cases h

/-- Typed reads and insertions never change anything when they fail, nor does a removal that hands out the raw value. -/
theorem C34_typed {κ β : Type} (T : DictType κ β) (acc : Cell → Bool) (d : Option Cell) (k : κ) :
    Unchanged d ((TOp.get k : TOp κ β).run T acc d) ∧ Unchanged d ((TOp.contains k : TOp κ β).run T acc d) ∧
    (∀ v mode, Unchanged d (T.insert acc d k v mode)) ∧ Unchanged d (T.removeRaw acc d k) := by
  refine ⟨fun _ _ => rfl, fun _ _ => rfl, fun v mode e h => ?_, fun e h => ?_⟩
  · unfold DictType.insert at h ⊢
    cases hk : T.keyOf k with
    | error e => rfl
    | ok key =>
      rw [hk] at h
      dsimp only at h ⊢
      cases hv : T.valueOf v with
      | error e => rfl
      | ok s =>
        rw [hv] at h
        dsimp only at h ⊢
        have hb := C34_basic acc T.key.bits d (.insert mode key s) e (by
          show (dictInsert acc d key T.key.bits s mode).1.map DOut.flag = .error e
          rw [h]; rfl)
        exact hb
  · unfold DictType.removeRaw at h ⊢
    cases hk : T.keyOf k with
    | error e => rfl
    | ok key =>
      rw [hk] at h
      dsimp only at h ⊢
      have hb := C34_basic acc T.key.bits d (.remove key) e (by
        show (dictRemoveOwned acc d key T.key.bits false).1.map DOut.value = .error e
        rw [h]; rfl)
      exact hb

/-- A typed removal that fails has changed nothing, unless the entry was found and taken out and its value is not one of the value type. -/
theorem C34_typed_remove_partial {κ β : Type} (T : DictType κ β) (acc : Cell → Bool) (d : Option Cell) (k : κ) (e : Err)
    (h : (T.remove acc d k).1 = .error e) :
    (T.remove acc d k).2 = d ∨ ∃ s, T.removeRaw acc d k = (.ok (some s), (T.remove acc d k).2) ∧ T.parse s = .error e := by
  have ha := (C34_typed T acc d k).2.2.2
  unfold DictType.remove at h ⊢
  generalize T.removeRaw acc d k = out at *
  obtain ⟨r, d'⟩ := out
  cases r with
  | error e' => exact .inl (ha e' rfl)
  | ok o =>
    cases o with
    | none => cases h
    | some s =>
      right
      refine ⟨s, rfl, ?_⟩
      dsimp only at h
      unfold DictType.parseOpt at h
      dsimp only at h
      cases hp : T.parse s with
      | error e' => rw [hp] at h; simpa [Except.map] using h
      | ok v => rw [hp] at h; cases h

/-- A removal of the first or last entry that fails has changed nothing, unless the entry was found and taken out and its key is not one of
the key type. -/
theorem C34_typed_bound_partial {κ β : Type} (T : DictType κ β) (acc : Cell → Bool) (d : Option Cell) (max signed : Bool) (e : Err)
    (h : (T.removeBound acc d max signed).1 = .error e) :
    (T.removeBound acc d max signed).2 = d ∨
    ∃ k s, dictRemoveBound acc d T.key.bits max signed = (.ok (some (k, s)), (T.removeBound acc d max signed).2) ∧ T.parseKey k = .error e := by
  have ha := C34_remove_bound acc T.key.bits d max signed
  unfold DictType.removeBound at h ⊢
  generalize dictRemoveBound acc d T.key.bits max signed = out at *
  obtain ⟨r, d'⟩ := out
  cases r with
  | error e' => exact .inl (ha e' rfl)
  | ok o =>
    cases o with
    | none => cases h
    | some p =>
      obtain ⟨k, s⟩ := p
      right
      refine ⟨k, s, rfl, ?_⟩
      dsimp only at h
      cases hp : T.parseKey k with
      | error e' => rw [hp] at h; simpa [Except.map] using h
      | ok v => rw [hp] at h; cases h

/-- An augmented dictionary over keys of two bits whose entries `00` and `10` hold no extra at all (as a cell from outside may). -/
def noExtras : AugDict (Bool × Nat) :=
  ⟨(buildDict none (fun _ => true) 2 lexBits [([false, false], ⟨[], []⟩), ([true, false], ⟨[], []⟩)]).toOption.getD none, (true, 5)⟩

/-- Wrong: a removal from an augmented dictionary reports an error, but the entry is gone, and the root extra is that of before. -/
theorem C34_aug_not_atomic :
    (noExtras.remove keyMaxLtAug (fun _ => true) 2 [false, false]).1.toOption = none ∧
    (dictGet noExtras.root 2 [false, false]).toOption.map Option.isSome = some true ∧
    (dictGet (noExtras.remove keyMaxLtAug (fun _ => true) 2 [false, false]).2.root 2 [false, false]).toOption.map Option.isSome = some false ∧
    (dictGet (noExtras.remove keyMaxLtAug (fun _ => true) 2 [false, false]).2.root 2 [true, false]).toOption.map Option.isSome = some true ∧
    (noExtras.remove keyMaxLtAug (fun _ => true) 2 [false, false]).2.extra = (true, 5) := by
  decide +kernel

/-- Failing operations exist: a key of the wrong length, and a value that does not fit. -/
example : (augInsert keyMaxLtAug.compAdd (fun _ => true) none [true] 2 ⟨[], []⟩ .set).1.toOption = none ∧
    (augRemove keyMaxLtAug.compAdd (fun _ => true) (some (.mk false [] [])) [true] 1 false).1.toOption = none ∧
    (modifyDict none (fun _ => true) 1 lexBits (some (.mk false [] [])) [([true], none)]).1.toOption = none := by
  decide +kernel

end Verif
