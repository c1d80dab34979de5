import Verif.ArrayVec
/-!
# C92: vectors on the stack own their items

The specification is a world in which a vector is a list and an iterator is the list of what it has not yet returned.
-/
set_option linter.unusedVariables false
namespace Verif
namespace ArrayVec

/-! ### Specification -/

inductive AObj
  | vec (l : List Item)
  | iter (l : List Item)
  | gone

def AObj.items : AObj → List Item
  | .vec l => l
  | .iter l => l
  | .gone => []

structure AWorld where
  fresh : Nat
  objs : List AObj
  user : List Item
  dropped : List Item

/-- One operation on lists. -/
def aStep (w : AWorld) : Op → AWorld × Ans
  | .make => ({ w with fresh := w.fresh + 1, user := w.user ++ [w.fresh] }, .item (some w.fresh))
  | .new => ({ w with objs := w.objs ++ [.vec []] }, .none)
  | .push v x =>
    match w.objs[v]? with
    | some (.vec l) => if x ∈ w.user then ({ w with objs := w.objs.set v (.vec (l ++ [x])), user := w.user.erase x }, .none) else (w, .none)
    | _ => (w, .none)
  | .get v i =>
    match w.objs[v]? with
    | some (.vec l) => (w, .item l[i]?)
    | _ => (w, .none)
  | .len v =>
    match w.objs[v]? with
    | some (.vec l) => (w, .count l.length)
    | some (.iter l) => (w, .count l.length)
    | _ => (w, .none)
  | .asRef v =>
    match w.objs[v]? with
    | some (.vec l) => (w, .items l)
    | _ => (w, .none)
  | .clone v =>
    match w.objs[v]? with
    | some (.vec l) => ({ w with fresh := w.fresh + l.length, objs := w.objs ++ [.vec (List.range' w.fresh l.length)] }, .none)
    | _ => (w, .none)
  | .drop v =>
    match w.objs[v]? with
    | some (.vec l) => ({ w with objs := w.objs.set v .gone, dropped := w.dropped ++ l }, .none)
    | some (.iter l) => ({ w with objs := w.objs.set v .gone, dropped := w.dropped ++ l }, .none)
    | _ => (w, .none)
  | .intoIter v =>
    match w.objs[v]? with
    | some (.vec l) => ({ w with objs := w.objs.set v (.iter l) }, .none)
    | _ => (w, .none)
  | .next v =>
    match w.objs[v]? with
    | some (.iter []) => (w, .item none)
    | some (.iter (x :: l)) => ({ w with objs := w.objs.set v (.iter l), user := w.user ++ [x] }, .item (some x))
    | _ => (w, .none)
  | .intoInner v =>
    match w.objs[v]? with
    | some (.vec l) => ({ w with objs := w.objs.set v .gone, user := w.user ++ l }, .items l)
    | _ => (w, .none)
  | .dropItem x => if x ∈ w.user then ({ w with user := w.user.erase x, dropped := w.dropped ++ [x] }, .none) else (w, .none)

def aStart : AWorld := ⟨0, [], [], []⟩

def aRun : AWorld → List Op → AWorld × List Ans
  | w, [] => (w, [])
  | w, o :: os => ((aRun (aStep w o).1 os).1, (aStep w o).2 :: (aRun (aStep w o).1 os).2)

/-- The contract of `push` (it is `unsafe`): the vector has fewer than `n` elements. -/
def Allowed (n : Nat) (w : AWorld) : Op → Prop
  | .push v _ => ∀ l, w.objs[v]? = some (.vec l) → l.length < n
  | _ => True

def Legal (n : Nat) : AWorld → List Op → Prop
  | _, [] => True
  | w, o :: os => Allowed n w o ∧ Legal n (aStep w o).1 os

/-! ### Lemmas: memory -/

theorem readRange_spec {s : Slots} : ∀ (n i : Nat) (l : List Item), l.length = n → (s.drop i).take n = l.map some → readRange s i n = .ok l
  | 0, i, l, hl, h => by
    rw [List.length_eq_zero_iff.mp hl]; rfl
  | n + 1, i, [], hl, h => by cases hl
  | n + 1, i, x :: l, hl, h => by
    have hne : s.drop i ≠ [] := by
      intro e
      rw [e] at h; simp at h
    obtain ⟨y, t, e⟩ := List.exists_cons_of_ne_nil hne
    rw [e] at h
    simp only [List.take_succ_cons, List.map_cons, List.cons.injEq] at h
    have h0 : s[i]? = some (some x) := by
      have : (s.drop i)[0]? = some y := by rw [e]; rfl
      rw [List.getElem?_drop] at this
      rw [h.1] at this
      simpa using this
    have ht : s.drop (i + 1) = t := by
      rw [← List.drop_drop, e]; rfl
    unfold readRange readAt
    rw [h0]
    simp only
    rw [readRange_spec n (i + 1) l (by simpa using hl) (by rw [ht]; exact h.2)]

/-- A vector in memory. -/
structure Holds (n : Nat) (inner : Slots) (l : List Item) : Prop where
  size : inner.length = n
  le : l.length ≤ n
  here : inner.take l.length = l.map some

theorem Holds.get {n : Nat} {inner : Slots} {l : List Item} (h : Holds n inner l) {i : Nat} (hi : i < l.length) : readAt inner i = .ok l[i] := by
  have e : (inner.take l.length)[i]? = (l.map some)[i]? := by rw [h.here]
  rw [List.getElem?_take_of_lt hi, List.getElem?_map, List.getElem?_eq_getElem hi] at e
  unfold readAt
  rw [e]
  rfl

theorem Holds.range {n : Nat} {inner : Slots} {l : List Item} (h : Holds n inner l) : readRange inner 0 l.length = .ok l :=
  readRange_spec l.length 0 l rfl (by rw [List.drop_zero]; exact h.here)

theorem Holds.push {n : Nat} (hn : n ≤ 255) {inner : Slots} {l : List Item} (h : Holds n inner l) (hl : l.length < n) (x : Item) :
    ∃ inner', pushRaw inner l.length x = .ok (inner', (l ++ [x]).length) ∧ Holds n inner' (l ++ [x]) := by
  refine ⟨inner.set l.length (some x), ?_, ?_, ?_, ?_⟩
  · unfold pushRaw
    rw [if_pos (by rw [h.size]; exact hl)]
    rw [List.length_append, List.length_singleton, Nat.mod_eq_of_lt (by omega)]
  · rw [List.length_set]; exact h.size
  · rw [List.length_append, List.length_singleton]; omega
  · rw [List.length_append, List.length_singleton, List.map_append, List.map_singleton]
    rw [List.take_add_one, List.getElem?_set_self (by rw [h.size]; exact hl), List.take_set_of_le (Nat.le_refl _), h.here]
    rfl

theorem Holds.empty (n : Nat) : Holds n (empty n) [] := ⟨by unfold ArrayVec.empty; simp, Nat.zero_le _, rfl⟩

theorem cloneGo_spec {n : Nat} (hn : n ≤ 255) : ∀ (xs : List Item) (inner : Slots) (l : List Item), Holds n inner l → l.length + xs.length ≤ n →
    ∃ inner', cloneGo xs inner l.length = .ok (inner', (l ++ xs).length) ∧ Holds n inner' (l ++ xs)
  | [], inner, l, h, hl => ⟨inner, by unfold cloneGo; rw [List.append_nil], by rw [List.append_nil]; exact h⟩
  | x :: xs, inner, l, h, hl => by
    rw [List.length_cons] at hl
    obtain ⟨i1, e1, h1⟩ := h.push hn (by omega) x
    obtain ⟨i2, e2, h2⟩ := cloneGo_spec hn xs i1 (l ++ [x]) h1 (by simp; omega)
    refine ⟨i2, ?_, by rw [List.append_assoc] at h2; exact h2⟩
    unfold cloneGo
    rw [e1]
    simp only
    rw [e2, List.append_assoc]
    rfl

/-- An object in memory. -/
inductive Rep (n : Nat) : Obj → AObj → Prop
  | vec {inner : Slots} {l : List Item} (h : Holds n inner l) : Rep n (.vec inner l.length) (.vec l)
  | iter {inner : Slots} {l : List Item} (off : Nat) (h : Holds n inner l) (ho : off ≤ l.length) : Rep n (.iter inner off l.length) (.iter (l.drop off))
  | gone : Rep n .gone .gone

inductive Reps (n : Nat) : List Obj → List AObj → Prop
  | nil : Reps n [] []
  | cons {o : Obj} {a : AObj} {os : List Obj} {as : List AObj} (h : Rep n o a) (hs : Reps n os as) : Reps n (o :: os) (a :: as)

theorem Reps.get {n : Nat} {os : List Obj} {as : List AObj} (h : Reps n os as) : ∀ i : Nat,
    (os[i]? = none ∧ as[i]? = none) ∨ ∃ o a, os[i]? = some o ∧ as[i]? = some a ∧ Rep n o a := by
  induction h with
  | nil => intro i; exact .inl ⟨rfl, rfl⟩
  | cons h hs ih =>
    intro i
    cases i with
    | zero => exact .inr ⟨_, _, rfl, rfl, h⟩
    | succ i => exact ih i

theorem Reps.set {n : Nat} {os : List Obj} {as : List AObj} (h : Reps n os as) {o : Obj} {a : AObj} (hr : Rep n o a) : ∀ i : Nat, Reps n (os.set i o) (as.set i a) := by
  induction h with
  | nil => intro i; exact .nil
  | cons h hs ih =>
    intro i
    cases i with
    | zero => exact .cons hr hs
    | succ i => exact .cons h (ih i)

theorem Reps.snoc {n : Nat} {os : List Obj} {as : List AObj} (h : Reps n os as) {o : Obj} {a : AObj} (hr : Rep n o a) : Reps n (os ++ [o]) (as ++ [a]) := by
  induction h with
  | nil => exact .cons hr .nil
  | cons h hs ih => exact .cons h ih

/-- The two worlds. -/
structure Same (n : Nat) (w : World) (a : AWorld) : Prop where
  fresh : w.fresh = a.fresh
  objs : Reps n w.objs a.objs
  user : w.user = a.user
  dropped : w.dropped = a.dropped

theorem step_same {n : Nat} (hn : n ≤ 255) {w : World} {a : AWorld} (h : Same n w a) (o : Op) (hal : Allowed n a o) :
    ∃ w', step n w o = .ok (w', (aStep a o).2) ∧ Same n w' (aStep a o).1 := by
  obtain ⟨wf, wo, wu, wd⟩ := w
  obtain ⟨af, ao, au, ad⟩ := a
  obtain ⟨h1, h2, h3, h4⟩ := h
  simp only at h1 h2 h3 h4
  subst h1 h3 h4
  cases o with
  | make => exact ⟨_, rfl, rfl, h2, rfl, rfl⟩
  | new => exact ⟨_, rfl, rfl, h2.snoc (.vec (Holds.empty n)), rfl, rfl⟩
  | push v x =>
    rcases h2.get v with ⟨e1, e2⟩ | ⟨o, a, e1, e2, hr⟩
    · exact ⟨⟨wf, wo, wu, wd⟩, by simp only [step, aStep, e1, e2], by simp only [aStep, e2]; exact ⟨rfl, h2, rfl, rfl⟩⟩
    · cases hr with
      | @vec inner l hh =>
        by_cases hx : x ∈ wu
        · obtain ⟨i', p1, p2⟩ := hh.push hn (hal l e2) x
          refine ⟨⟨wf, wo.set v (.vec i' (l ++ [x]).length), wu.erase x, wd⟩, ?_, ?_⟩
          · simp only [step, aStep, e1, e2, if_pos hx, p1]
          · simp only [aStep, e2, if_pos hx]
            exact ⟨rfl, h2.set (.vec p2) v, rfl, rfl⟩
        · exact ⟨⟨wf, wo, wu, wd⟩, by simp only [step, aStep, e1, e2, if_neg hx], by simp only [aStep, e2, if_neg hx]; exact ⟨rfl, h2, rfl, rfl⟩⟩
      | iter off hh ho => exact ⟨⟨wf, wo, wu, wd⟩, by simp only [step, aStep, e1, e2], by simp only [aStep, e2]; exact ⟨rfl, h2, rfl, rfl⟩⟩
      | gone => exact ⟨⟨wf, wo, wu, wd⟩, by simp only [step, aStep, e1, e2], by simp only [aStep, e2]; exact ⟨rfl, h2, rfl, rfl⟩⟩
  | get v i =>
    rcases h2.get v with ⟨e1, e2⟩ | ⟨o, a, e1, e2, hr⟩
    · exact ⟨⟨wf, wo, wu, wd⟩, by simp only [step, aStep, e1, e2], by simp only [aStep, e2]; exact ⟨rfl, h2, rfl, rfl⟩⟩
    · cases hr with
      | @vec inner l hh =>
        refine ⟨⟨wf, wo, wu, wd⟩, ?_, by simp only [aStep, e2]; exact ⟨rfl, h2, rfl, rfl⟩⟩
        by_cases hi : i < l.length
        · simp only [step, aStep, e1, e2, if_pos hi, hh.get hi, List.getElem?_eq_getElem hi]
        · simp only [step, aStep, e1, e2, if_neg hi, List.getElem?_eq_none (Nat.le_of_not_lt hi)]
      | iter off hh ho => exact ⟨⟨wf, wo, wu, wd⟩, by simp only [step, aStep, e1, e2], by simp only [aStep, e2]; exact ⟨rfl, h2, rfl, rfl⟩⟩
      | gone => exact ⟨⟨wf, wo, wu, wd⟩, by simp only [step, aStep, e1, e2], by simp only [aStep, e2]; exact ⟨rfl, h2, rfl, rfl⟩⟩
  | len v =>
    rcases h2.get v with ⟨e1, e2⟩ | ⟨o, a, e1, e2, hr⟩
    · exact ⟨⟨wf, wo, wu, wd⟩, by simp only [step, aStep, e1, e2], by simp only [aStep, e2]; exact ⟨rfl, h2, rfl, rfl⟩⟩
    · cases hr with
      | @vec inner l hh => exact ⟨⟨wf, wo, wu, wd⟩, by simp only [step, aStep, e1, e2], by simp only [aStep, e2]; exact ⟨rfl, h2, rfl, rfl⟩⟩
      | iter off hh ho => exact ⟨⟨wf, wo, wu, wd⟩, by simp only [step, aStep, e1, e2, List.length_drop], by simp only [aStep, e2]; exact ⟨rfl, h2, rfl, rfl⟩⟩
      | gone => exact ⟨⟨wf, wo, wu, wd⟩, by simp only [step, aStep, e1, e2], by simp only [aStep, e2]; exact ⟨rfl, h2, rfl, rfl⟩⟩
  | asRef v =>
    rcases h2.get v with ⟨e1, e2⟩ | ⟨o, a, e1, e2, hr⟩
    · exact ⟨⟨wf, wo, wu, wd⟩, by simp only [step, aStep, e1, e2], by simp only [aStep, e2]; exact ⟨rfl, h2, rfl, rfl⟩⟩
    · cases hr with
      | @vec inner l hh => exact ⟨⟨wf, wo, wu, wd⟩, by simp only [step, aStep, e1, e2, hh.range], by simp only [aStep, e2]; exact ⟨rfl, h2, rfl, rfl⟩⟩
      | iter off hh ho => exact ⟨⟨wf, wo, wu, wd⟩, by simp only [step, aStep, e1, e2], by simp only [aStep, e2]; exact ⟨rfl, h2, rfl, rfl⟩⟩
      | gone => exact ⟨⟨wf, wo, wu, wd⟩, by simp only [step, aStep, e1, e2], by simp only [aStep, e2]; exact ⟨rfl, h2, rfl, rfl⟩⟩
  | clone v =>
    rcases h2.get v with ⟨e1, e2⟩ | ⟨o, a, e1, e2, hr⟩
    · exact ⟨⟨wf, wo, wu, wd⟩, by simp only [step, aStep, e1, e2], by simp only [aStep, e2]; exact ⟨rfl, h2, rfl, rfl⟩⟩
    · cases hr with
      | @vec inner l hh =>
        obtain ⟨i', p1, p2⟩ := cloneGo_spec hn (List.range' wf l.length) (empty n) [] (Holds.empty n) (by simp; exact hh.le)
        rw [List.nil_append] at p1 p2
        rw [List.length_nil] at p1
        refine ⟨⟨wf + l.length, wo ++ [.vec i' (List.range' wf l.length).length], wu, wd⟩, ?_, ?_⟩
        · simp only [step, aStep, e1, e2, hh.range, p1]
        · simp only [aStep, e2]
          exact ⟨rfl, h2.snoc (.vec p2), rfl, rfl⟩
      | iter off hh ho => exact ⟨⟨wf, wo, wu, wd⟩, by simp only [step, aStep, e1, e2], by simp only [aStep, e2]; exact ⟨rfl, h2, rfl, rfl⟩⟩
      | gone => exact ⟨⟨wf, wo, wu, wd⟩, by simp only [step, aStep, e1, e2], by simp only [aStep, e2]; exact ⟨rfl, h2, rfl, rfl⟩⟩
  | drop v =>
    rcases h2.get v with ⟨e1, e2⟩ | ⟨o, a, e1, e2, hr⟩
    · exact ⟨⟨wf, wo, wu, wd⟩, by simp only [step, aStep, e1, e2], by simp only [aStep, e2]; exact ⟨rfl, h2, rfl, rfl⟩⟩
    · cases hr with
      | @vec inner l hh =>
        refine ⟨⟨wf, wo.set v .gone, wu, wd ++ l⟩, by simp only [step, aStep, e1, e2, hh.range], ?_⟩
        simp only [aStep, e2]
        exact ⟨rfl, h2.set .gone v, rfl, rfl⟩
      | @iter inner l off hh ho =>
        have hrr : readRange inner off (l.length - off) = .ok (l.drop off) := by
          refine readRange_spec _ _ _ (List.length_drop ..) ?_
          rw [List.take_drop, Nat.add_sub_cancel' ho, hh.here, List.map_drop]
        refine ⟨⟨wf, wo.set v .gone, wu, wd ++ l.drop off⟩, by simp only [step, aStep, e1, e2, hrr], ?_⟩
        simp only [aStep, e2]
        exact ⟨rfl, h2.set .gone v, rfl, rfl⟩
      | gone => exact ⟨⟨wf, wo, wu, wd⟩, by simp only [step, aStep, e1, e2], by simp only [aStep, e2]; exact ⟨rfl, h2, rfl, rfl⟩⟩
  | intoIter v =>
    rcases h2.get v with ⟨e1, e2⟩ | ⟨o, a, e1, e2, hr⟩
    · exact ⟨⟨wf, wo, wu, wd⟩, by simp only [step, aStep, e1, e2], by simp only [aStep, e2]; exact ⟨rfl, h2, rfl, rfl⟩⟩
    · cases hr with
      | @vec inner l hh =>
        refine ⟨⟨wf, wo.set v (.iter inner 0 l.length), wu, wd⟩, by simp only [step, aStep, e1, e2], ?_⟩
        simp only [aStep, e2]
        exact ⟨rfl, h2.set (Rep.iter 0 hh (Nat.zero_le _)) v, rfl, rfl⟩
      | iter off hh ho => exact ⟨⟨wf, wo, wu, wd⟩, by simp only [step, aStep, e1, e2], by simp only [aStep, e2]; exact ⟨rfl, h2, rfl, rfl⟩⟩
      | gone => exact ⟨⟨wf, wo, wu, wd⟩, by simp only [step, aStep, e1, e2], by simp only [aStep, e2]; exact ⟨rfl, h2, rfl, rfl⟩⟩
  | next v =>
    rcases h2.get v with ⟨e1, e2⟩ | ⟨o, a, e1, e2, hr⟩
    · exact ⟨⟨wf, wo, wu, wd⟩, by simp only [step, aStep, e1, e2], by simp only [aStep, e2]; exact ⟨rfl, h2, rfl, rfl⟩⟩
    · cases hr with
      | vec hh => exact ⟨⟨wf, wo, wu, wd⟩, by simp only [step, aStep, e1, e2], by simp only [aStep, e2]; exact ⟨rfl, h2, rfl, rfl⟩⟩
      | @iter inner l off hh ho =>
        by_cases hlt : off < l.length
        · have hd : l.drop off = l[off] :: l.drop (off + 1) := List.drop_eq_getElem_cons hlt
          rw [hd] at e2
          refine ⟨⟨wf, wo.set v (.iter inner (off + 1) l.length), wu ++ [l[off]], wd⟩, ?_, ?_⟩
          · simp only [step, aStep, e1, e2, if_neg (show ¬ off ≥ l.length by omega), hh.get hlt]
          · simp only [aStep, e2]
            exact ⟨rfl, h2.set (Rep.iter (off + 1) hh hlt) v, rfl, rfl⟩
        · have hd : l.drop off = [] := List.drop_eq_nil_of_le (by omega)
          rw [hd] at e2
          exact ⟨⟨wf, wo, wu, wd⟩, by simp only [step, aStep, e1, e2, if_pos (show off ≥ l.length by omega)], by simp only [aStep, e2]; exact ⟨rfl, h2, rfl, rfl⟩⟩
      | gone => exact ⟨⟨wf, wo, wu, wd⟩, by simp only [step, aStep, e1, e2], by simp only [aStep, e2]; exact ⟨rfl, h2, rfl, rfl⟩⟩
  | intoInner v =>
    rcases h2.get v with ⟨e1, e2⟩ | ⟨o, a, e1, e2, hr⟩
    · exact ⟨⟨wf, wo, wu, wd⟩, by simp only [step, aStep, e1, e2], by simp only [aStep, e2]; exact ⟨rfl, h2, rfl, rfl⟩⟩
    · cases hr with
      | @vec inner l hh =>
        refine ⟨⟨wf, wo.set v .gone, wu ++ l, wd⟩, by simp only [step, aStep, e1, e2, hh.range], ?_⟩
        simp only [aStep, e2]
        exact ⟨rfl, h2.set .gone v, rfl, rfl⟩
      | iter off hh ho => exact ⟨⟨wf, wo, wu, wd⟩, by simp only [step, aStep, e1, e2], by simp only [aStep, e2]; exact ⟨rfl, h2, rfl, rfl⟩⟩
      | gone => exact ⟨⟨wf, wo, wu, wd⟩, by simp only [step, aStep, e1, e2], by simp only [aStep, e2]; exact ⟨rfl, h2, rfl, rfl⟩⟩
  | dropItem x =>
    by_cases hx : x ∈ wu
    · exact ⟨⟨wf, wo, wu.erase x, wd ++ [x]⟩, by simp only [step, aStep, if_pos hx], by simp only [aStep, if_pos hx]; exact ⟨rfl, h2, rfl, rfl⟩⟩
    · exact ⟨⟨wf, wo, wu, wd⟩, by simp only [step, aStep, if_neg hx], by simp only [aStep, if_neg hx]; exact ⟨rfl, h2, rfl, rfl⟩⟩

theorem run_same {n : Nat} (hn : n ≤ 255) : ∀ (os : List Op) {w : World} {a : AWorld}, Same n w a → Legal n a os →
    ∃ w', run n w os = .ok (w', (aRun a os).2) ∧ Same n w' (aRun a os).1
  | [], w, a, h, _ => ⟨w, rfl, h⟩
  | o :: os, w, a, h, hl => by
    obtain ⟨w1, e1, s1⟩ := step_same hn h o hl.1
    obtain ⟨w2, e2, s2⟩ := run_same hn os s1 hl.2
    exact ⟨w2, by unfold run; rw [e1]; simp only; rw [e2]; rfl, s2⟩

/-! ### Lemmas: every item is in one place -/

/-- How many times the objects hold an item. -/
def held (x : Item) : List AObj → Nat
  | [] => 0
  | o :: os => o.items.count x + held x os

/-- Places of an item. -/
def places (x : Item) (w : AWorld) : Nat := w.user.count x + held x w.objs + w.dropped.count x

/-- Every item that was made is in one place, others are nowhere. -/
def Once (w : AWorld) : Prop := ∀ x : Nat, places x w = if x < w.fresh then 1 else 0

theorem held_snoc (x : Item) (o : AObj) : ∀ os, held x (os ++ [o]) = held x os + o.items.count x
  | [] => by simp [held]
  | a :: os => by rw [List.cons_append, held, held, held_snoc x o os]; omega

theorem held_set (x : Item) (o' : AObj) : ∀ (os : List AObj) (v : Nat) (o : AObj), os[v]? = some o →
    held x (os.set v o') + o.items.count x = held x os + o'.items.count x
  | [], v, o, h => by simp at h
  | a :: os, 0, o, h => by
    simp only [List.getElem?_cons_zero, Option.some.injEq] at h
    subst h
    rw [List.set_cons_zero, held, held]; omega
  | a :: os, v + 1, o, h => by
    rw [List.getElem?_cons_succ] at h
    rw [List.set_cons_succ, held, held]
    have := held_set x o' os v o h
    omega

theorem held_pos {x : Item} : ∀ {os : List AObj} {v : Nat} {o : AObj}, os[v]? = some o → x ∈ o.items → 0 < held x os
  | [], v, o, h, _ => by simp at h
  | a :: os, 0, o, h, hx => by
    simp only [List.getElem?_cons_zero, Option.some.injEq] at h
    subst h
    rw [held]
    have := List.count_pos_iff.mpr hx
    omega
  | a :: os, v + 1, o, h, hx => by
    rw [List.getElem?_cons_succ] at h
    rw [held]
    have := held_pos h hx
    omega

theorem count_erase_mem {x y : Nat} {l : List Nat} (h : y ∈ l) : (l.erase y).count x + [y].count x = l.count x := by
  by_cases e : x = y
  · subst e
    have := List.count_pos_iff.mpr h
    rw [List.count_erase_self, List.count_singleton_self]
    omega
  · rw [List.count_erase_of_ne e, List.count_singleton]
    have : (y == x) = false := by simpa using fun h => e h.symm
    rw [this]; simp

theorem count_range' (x : Nat) : ∀ (k f : Nat), (List.range' f k).count x = if f ≤ x ∧ x < f + k then 1 else 0
  | 0, f => by rw [if_neg (by omega)]; rfl
  | k + 1, f => by
    rw [List.range'_succ, List.count_cons, count_range' x k (f + 1)]
    by_cases e : f = x
    · subst e
      rw [if_neg (by omega), if_pos (by simp), if_pos (by omega)]
    · have : (f == x) = false := by simpa using e
      rw [this]
      simp only [Bool.false_eq_true, if_false, Nat.add_zero]
      by_cases h : f + 1 ≤ x ∧ x < f + 1 + k
      · rw [if_pos h, if_pos (by omega)]
      · rw [if_neg h, if_neg (by omega)]

/-- A step makes new items, and puts each in one place. -/
def Grown (w w' : AWorld) : Prop := ∃ k, w'.fresh = w.fresh + k ∧ ∀ x : Nat, places x w' = places x w + (List.range' w.fresh k).count x

theorem Grown.refl (w : AWorld) : Grown w w := ⟨0, rfl, fun x => rfl⟩

theorem Grown.of {w w' : AWorld} (hf : w'.fresh = w.fresh) (h : ∀ x : Nat, places x w' = places x w) : Grown w w' :=
  ⟨0, hf, fun x => by rw [h x]; rfl⟩

theorem aStep_grown (w : AWorld) (o : Op) : Grown w (aStep w o).1 := by
  obtain ⟨f, os, u, d⟩ := w
  cases o with
  | make =>
    refine ⟨1, rfl, fun x => ?_⟩
    simp only [places, aStep, List.count_append]
    show _ = _ + [f].count x
    omega
  | new =>
    refine Grown.of rfl (fun x => ?_)
    simp only [places, aStep, held_snoc, AObj.items, List.count_nil]; omega
  | push v y =>
    simp only [aStep]
    split
    · next l e =>
      split
      · next hy =>
        refine Grown.of rfl (fun x => ?_)
        have h1 := held_set x (.vec (l ++ [y])) os v _ e
        have h2 := count_erase_mem (x := x) hy
        simp only [places, AObj.items, List.count_append] at h1 ⊢
        omega
      · exact .refl _
    · exact .refl _
  | get v i => simp only [aStep]; split <;> exact .refl _
  | len v => simp only [aStep]; split <;> exact .refl _
  | asRef v => simp only [aStep]; split <;> exact .refl _
  | clone v =>
    simp only [aStep]
    split
    · next l e =>
      refine ⟨l.length, rfl, fun x => ?_⟩
      simp only [places, held_snoc, AObj.items]
      omega
    · exact .refl _
  | drop v =>
    simp only [aStep]
    split
    · next l e =>
      refine Grown.of rfl (fun x => ?_)
      have h1 := held_set x .gone os v _ e
      simp only [places, AObj.items, List.count_append, List.count_nil] at h1 ⊢
      omega
    · next l e =>
      refine Grown.of rfl (fun x => ?_)
      have h1 := held_set x .gone os v _ e
      simp only [places, AObj.items, List.count_append, List.count_nil] at h1 ⊢
      omega
    · exact .refl _
  | intoIter v =>
    simp only [aStep]
    split
    · next l e =>
      refine Grown.of rfl (fun x => ?_)
      have h1 := held_set x (.iter l) os v _ e
      simp only [places, AObj.items] at h1 ⊢
      omega
    · exact .refl _
  | next v =>
    simp only [aStep]
    split
    · exact .refl _
    · next y l e =>
      refine Grown.of rfl (fun x => ?_)
      have h1 := held_set x (.iter l) os v _ e
      have h2 : (y :: l).count x = [y].count x + l.count x := by
        rw [← List.count_append]; rfl
      simp only [places, AObj.items, List.count_append, h2] at h1 ⊢
      omega
    · exact .refl _
  | intoInner v =>
    simp only [aStep]
    split
    · next l e =>
      refine Grown.of rfl (fun x => ?_)
      have h1 := held_set x .gone os v _ e
      simp only [places, AObj.items, List.count_append, List.count_nil] at h1 ⊢
      omega
    · exact .refl _
  | dropItem y =>
    simp only [aStep]
    split
    · next hy =>
      refine Grown.of rfl (fun x => ?_)
      have h2 := count_erase_mem (x := x) hy
      simp only [places, List.count_append]
      omega
    · exact .refl _

theorem aStep_once {w : AWorld} (h : Once w) (o : Op) : Once (aStep w o).1 := by
  obtain ⟨k, e, hp⟩ := aStep_grown w o
  intro x
  rw [hp x, h x, count_range', e]
  by_cases h1 : x < w.fresh
  · rw [if_pos h1, if_neg (by omega), if_pos (by omega)]
  · rw [if_neg h1]
    by_cases h2 : x < w.fresh + k
    · rw [if_pos (by omega), if_pos h2]
    · rw [if_neg (by omega), if_neg h2]

theorem aRun_once : ∀ (os : List Op) {w : AWorld}, Once w → Once (aRun w os).1
  | [], _, h => h
  | o :: os, _, h => aRun_once os (aStep_once h o)

theorem start_same (n : Nat) : Same n start aStart := ⟨rfl, .nil, rfl, rfl⟩

theorem aStart_once : Once aStart := fun x => rfl

theorem held_gone (x : Item) : ∀ {os : List AObj}, (∀ o ∈ os, o = .gone) → held x os = 0
  | [], _ => rfl
  | o :: os, h => by
    rw [held, h o (.head _), held_gone x (fun o ho => h o (.tail _ ho))]; rfl

theorem Reps.gone {n : Nat} {os : List Obj} {as : List AObj} (h : Reps n os as) : (∀ o ∈ os, o = .gone) → ∀ a ∈ as, a = .gone := by
  induction h with
  | nil => intro _ a ha; cases ha
  | cons h hs ih =>
    intro hg a ha
    cases ha with
    | head =>
      have := hg _ (.head _)
      subst this
      cases h
      rfl
    | tail _ ha => exact ih (fun o ho => hg o (.tail _ ho)) a ha

/-! ### Properties -/

/-- **C92**: a program that never pushes onto a full vector never reads memory that was not written and never leaves the array,
and it cannot tell vectors and iterators from lists: every answer is that of the lists. -/
theorem C92_lists {n : Nat} (hn : n ≤ 255) (os : List Op) (h : Legal n aStart os) :
    ∃ w, run n start os = .ok (w, (aRun aStart os).2) ∧ w.user = (aRun aStart os).1.user ∧ w.dropped = (aRun aStart os).1.dropped := by
  obtain ⟨w, e, hs⟩ := run_same hn os (start_same n) h
  exact ⟨w, e, hs.user, hs.dropped⟩

/-- **C92**: after any such program no item has been dropped twice, no item in the hands of the user has been dropped, the user has no item twice,
and whatever was dropped or given was made before. -/
theorem C92_once {n : Nat} (hn : n ≤ 255) (os : List Op) (h : Legal n aStart os) {w : World} {as : List Ans} (e : run n start os = .ok (w, as)) :
    w.dropped.Nodup ∧ w.user.Nodup ∧ (∀ x ∈ w.user, x ∉ w.dropped) ∧ ∀ x, x ∈ w.user ∨ x ∈ w.dropped → x < w.fresh := by
  obtain ⟨w', e', hs⟩ := run_same hn os (start_same n) h
  rw [e] at e'
  cases e'
  have ho := aRun_once os aStart_once
  rw [hs.user, hs.dropped, hs.fresh]
  generalize (aRun aStart os).1 = a at ho
  have hle : ∀ x, a.user.count x + held x a.objs + a.dropped.count x ≤ 1 := by
    intro x
    have := ho x
    unfold places at this
    rw [this]; split <;> omega
  refine ⟨?_, ?_, ?_, ?_⟩
  · rw [List.nodup_iff_count]; intro x; have := hle x; omega
  · rw [List.nodup_iff_count]; intro x; have := hle x; omega
  · intro x h1 h2
    have := hle x
    have := List.count_pos_iff.mpr h1
    have := List.count_pos_iff.mpr h2
    omega
  · intro x hx
    have := ho x
    unfold places at this
    by_cases hl : x < a.fresh
    · exact hl
    · rw [if_neg hl] at this
      rcases hx with h1 | h1
      · have := List.count_pos_iff.mpr h1; omega
      · have := List.count_pos_iff.mpr h1; omega

/-- **C92**: once the vectors and iterators are gone nothing has leaked: each item that was made is in the hands of the user or was dropped. -/
theorem C92_no_leak {n : Nat} (hn : n ≤ 255) (os : List Op) (h : Legal n aStart os) {w : World} {as : List Ans} (e : run n start os = .ok (w, as))
    (hg : ∀ o ∈ w.objs, o = .gone) : ∀ x, x < w.fresh → x ∈ w.user ∨ x ∈ w.dropped := by
  obtain ⟨w', e', hs⟩ := run_same hn os (start_same n) h
  rw [e] at e'
  cases e'
  have ho := aRun_once os aStart_once
  have hg' := hs.objs.gone hg
  rw [hs.user, hs.dropped, hs.fresh]
  generalize (aRun aStart os).1 = a at ho hg'
  intro x hx
  have := ho x
  unfold places at this
  rw [if_pos hx, held_gone x hg'] at this
  by_cases hu : x ∈ a.user
  · exact .inl hu
  · rw [List.count_eq_zero_of_not_mem hu] at this
    exact .inr (List.count_pos_iff.mp (by omega))

/-- **C92**: what `get` and `as_ref` show, and what the iterator and `into_inner` give, has not been dropped. -/
theorem C92_alive {n : Nat} (hn : n ≤ 255) (os : List Op) (h : Legal n aStart os) {w : World} {as : List Ans} (e : run n start os = .ok (w, as))
    {w' : World} {v i : Nat} {x : Item} {l : List Item} :
    (step n w (.get v i) = .ok (w', .item (some x)) → x ∉ w.dropped ∧ x ∉ w.user) ∧
    (step n w (.asRef v) = .ok (w', .items l) → ∀ y ∈ l, y ∉ w.dropped ∧ y ∉ w.user) ∧
    (step n w (.next v) = .ok (w', .item (some x)) → x ∉ w.dropped ∧ x ∉ w.user) ∧
    (step n w (.intoInner v) = .ok (w', .items l) → ∀ y ∈ l, y ∉ w.dropped ∧ y ∉ w.user) := by
  obtain ⟨w0, e', hs⟩ := run_same hn os (start_same n) h
  rw [e] at e'
  cases e'
  have ho := aRun_once os aStart_once
  have s1 := fun op => step_same hn hs op
  rw [hs.user, hs.dropped]
  generalize (aRun aStart os).1 = a at ho s1
  have key : ∀ {v : Nat} {o : AObj}, a.objs[v]? = some o → ∀ y ∈ o.items, y ∉ a.dropped ∧ y ∉ a.user := by
    intro v o hv y hy
    have hp := held_pos hv hy
    have hh := ho y
    unfold places at hh
    constructor
    · intro hc
      have := List.count_pos_iff.mpr hc
      split at hh <;> omega
    · intro hc
      have := List.count_pos_iff.mpr hc
      split at hh <;> omega
  refine ⟨?_, ?_, ?_, ?_⟩
  · intro hst
    obtain ⟨w2, e2, -⟩ := s1 (.get v i) trivial
    rw [hst] at e2
    simp only [Except.ok.injEq, Prod.mk.injEq] at e2
    have e3 := e2.2
    simp only [aStep] at e3
    split at e3
    · next l' hv =>
      simp only [Ans.item.injEq] at e3
      exact key hv x (List.mem_of_getElem? e3.symm)
    · cases e3
  · intro hst
    obtain ⟨w2, e2, -⟩ := s1 (.asRef v) trivial
    rw [hst] at e2
    simp only [Except.ok.injEq, Prod.mk.injEq] at e2
    have e3 := e2.2
    simp only [aStep] at e3
    split at e3
    · next l' hv =>
      simp only [Ans.items.injEq] at e3
      subst e3
      exact key hv
    · cases e3
  · intro hst
    obtain ⟨w2, e2, -⟩ := s1 (.next v) trivial
    rw [hst] at e2
    simp only [Except.ok.injEq, Prod.mk.injEq] at e2
    have e3 := e2.2
    simp only [aStep] at e3
    split at e3
    · cases e3
    · next y l' hv =>
      simp only [Ans.item.injEq, Option.some.injEq] at e3
      subst e3
      exact key hv x (.head _)
    · cases e3
  · intro hst
    obtain ⟨w2, e2, -⟩ := s1 (.intoInner v) trivial
    rw [hst] at e2
    simp only [Except.ok.injEq, Prod.mk.injEq] at e2
    have e3 := e2.2
    simp only [aStep] at e3
    split at e3
    · next l' hv =>
      simp only [Ans.items.injEq] at e3
      subst e3
      exact key hv
    · cases e3

/-- **C92**: the contract is needed: a push onto a full vector leaves the array. -/
theorem C92_contract {n : Nat} (hn : n ≤ 255) (os : List Op) (h : Legal n aStart os) {w : World} {as : List Ans} (e : run n start os = .ok (w, as))
    {v : Nat} {l : List Item} (hv : (aRun aStart os).1.objs[v]? = some (.vec l)) (hf : l.length = n) {x : Item} (hx : x ∈ w.user) :
    step n w (.push v x) = .error .bounds := by
  obtain ⟨w', e', hs⟩ := run_same hn os (start_same n) h
  rw [e] at e'
  cases e'
  rcases hs.objs.get v with ⟨_, e2⟩ | ⟨o, a, e1, e2, hr⟩
  · rw [hv] at e2; cases e2
  · rw [hv] at e2
    cases e2
    cases hr with
    | @vec inner l hh =>
      have : pushRaw inner l.length x = .error .bounds := by
        unfold pushRaw
        rw [if_neg (by rw [hh.size]; omega)]
      simp only [step, e1, if_pos hx, this]

/-! ### The capacity must fit its counter

The struct has a constant that asserts `N <= u8::MAX` (`util.rs:163-164`), but no function mentions it, and a constant of a generic `impl` is evaluated
only where it is mentioned.  A vector of capacity 256 can be made, and its 256th push is within the contract. -/

/-- Filling a vector: `k` items made and pushed. -/
def fill : Nat → List Op
  | 0 => [.new]
  | k + 1 => fill k ++ [.make, .push 0 k]

/-- **C92**, the gap: a vector with room for 256 items that is given 256 items, each push within the contract, is empty,
and when it is dropped it drops none of them. -/
theorem C92_counter_wraps :
    (match run 256 start (fill 256 ++ [.len 0, .drop 0]) with
     | .ok (w, as) => w.fresh == 256 && w.user == [] && w.dropped == [] && as[as.length - 2]? == some (.count 0)
     | .error _ => false) = true := by decide +kernel

/-- The same with 255 items in a vector of 255. -/
example :
    (match run 255 start (fill 255 ++ [.len 0, .drop 0]) with
     | .ok (w, as) => w.fresh == 255 && w.user == [] && w.dropped == List.range 255 && as[as.length - 2]? == some (.count 255)
     | .error _ => false) = true := by decide +kernel

/-- A program within the contract: three items are pushed, the vector is cloned, one item is taken out of the iterator, all the rest is dropped. -/
def sample : List Op :=
  [.make, .make, .make, .new, .push 0 0, .push 0 1, .push 0 2, .get 0 1, .get 0 3, .clone 0, .asRef 1, .intoIter 0, .next 0, .len 0, .drop 0, .drop 1, .dropItem 0]

example : Legal 3 aStart sample := by
  refine ⟨trivial, trivial, trivial, trivial, ?_, ?_, ?_, trivial, trivial, trivial, trivial, trivial, trivial, trivial, trivial, trivial, trivial, trivial⟩ <;>
  · intro l hl
    cases hl
    decide

example :
    (match run 3 start sample with
     | .ok (w, as) => as == [.item (some 0), .item (some 1), .item (some 2), .none, .none, .none, .none, .item (some 1), .item none, .none,
          .items [3, 4, 5], .none, .item (some 0), .count 2, .none, .none, .none] && w.dropped == [1, 2, 3, 4, 5, 0] && w.user == []
     | .error _ => false) = true := by decide +kernel

end ArrayVec
end Verif
