import Verif.AbiSame
/-
Reading by a type with its names removed: the same value with its names removed.
-/
set_option linter.unusedVariables false
namespace Verif.Abi

/-- A reader whose result is changed by a function. -/
def rmap {α β : Type} (f : α → β) (p : Rd Cell α) : Rd Cell β := fun s =>
  match p s with
  | (.ok v, s') => (.ok (f v), s')
  | (.error e, s') => (.error e, s')

theorem rmap_bind {α β γ : Type} (f : β → γ) (p : Rd Cell α) (q : α → Rd Cell β) : rmap f (p >>= q) = p >>= fun x => rmap f (q x) := by
  funext s
  simp only [rmap, bind, Prog.bind]
  rcases p s with ⟨_ | _, _⟩ <;> rfl

theorem bind_rmap {α β γ : Type} (f : α → β) (p : Rd Cell α) (q : β → Rd Cell γ) : rmap f p >>= q = p >>= fun x => q (f x) := by
  funext s
  simp only [rmap, bind, Prog.bind]
  rcases p s with ⟨_ | _, _⟩ <;> rfl

theorem rmap_pure {α β : Type} (f : α → β) (a : α) : rmap f (Pure.pure a : Rd Cell α) = Pure.pure (f a) := rfl

theorem rmap_give {α β : Type} (f : α → β) (r : Except Err α) : rmap f (give r) = give (r.map f) := by
  cases r <;> rfl

theorem rmap_failIf {α β : Type} (f : α → β) (c : Bool) (a : α) : rmap f (failIf c a) = failIf c (f a) := by
  cases c <;> rfl

theorem whole_rmap {α β : Type} (part : Bool) (f : α → β) (ld : Rd Cell α) (s : CSlice Cell) : whole part (rmap f ld) s = (whole part ld s).map f := by
  simp only [whole, rmap]
  rcases ld s with ⟨_ | _, s'⟩
  · rfl
  · dsimp only
    cases checkRemaining part s' <;> rfl

theorem loadValues_bare (part : Bool) (ld : Rd Cell Val) : ∀ (k : Nat) (it : RawValues),
    loadValues part (rmap Val.bare ld) k it = (loadValues part ld k it).map Elems.bare
  | 0, _ => rfl
  | k + 1, it => by
    simp only [loadValues]
    rcases it.next with ⟨_ | _ | sl, it'⟩
    · rfl
    · rfl
    · dsimp only
      rw [whole_rmap]
      cases whole part ld sl.reader with
      | error e => rfl
      | ok v =>
        show (loadValues part (rmap Val.bare ld) k it' >>= fun r => .ok (Elems.cons v.bare r)) = _
        rw [loadValues_bare part ld k it']
        show _ = Except.map Elems.bare (loadValues part ld k it' >>= fun r => .ok (Elems.cons v r))
        cases loadValues part ld k it' <;> rfl

theorem loadArray_bare (part : Bool) (ld : Rd Cell Val) (len : Nat) : loadArray part (rmap Val.bare ld) len = rmap Elems.bare (loadArray part ld len) := by
  simp only [loadArray, rmap_bind, rmap_give, loadValues_bare]

theorem insert_bare (k : PVal) (v : Val) : ∀ m : Entries, (m.insert k v).bare = m.bare.insert k v.bare
  | .nil => rfl
  | .cons j w r => by
    simp only [Entries.insert, Entries.bare]
    split
    · rfl
    · simp only [Entries.bare, insert_bare k v r]

theorem loadEntries_bare (k : PTy) (ld : Rd Cell Val) : ∀ (fuel : Nat) (it : RawIter) (m : Entries),
    loadEntries k (rmap Val.bare ld) fuel it m.bare = (loadEntries k ld fuel it m).map Entries.bare
  | 0, _, _ => rfl
  | fuel + 1, it, m => by
    simp only [loadEntries]
    rcases it.next with ⟨_ | _ | ⟨key, sl⟩, it'⟩
    · rfl
    · rfl
    · dsimp only
      cases (k.load (Sl.reader ⟨key, []⟩)).1 with
      | error e => rfl
      | ok key =>
        show ((rmap Val.bare ld sl.reader).1 >>= fun v => loadEntries k (rmap Val.bare ld) fuel it' (m.bare.insert key v)) =
          ((ld sl.reader).1 >>= fun v => loadEntries k ld fuel it' (m.insert key v)).map Entries.bare
        simp only [rmap]
        rcases ld sl.reader with ⟨_ | v, s'⟩
        · rfl
        · show loadEntries k (rmap Val.bare ld) fuel it' (m.bare.insert key v.bare) = (loadEntries k ld fuel it' (m.insert key v)).map Entries.bare
          rw [← insert_bare]
          exact loadEntries_bare k ld fuel it' _

theorem loadMap_bare (k : PTy) (ld : Rd Cell Val) : loadMap k (rmap Val.bare ld) = rmap Entries.bare (loadMap k ld) := by
  simp only [loadMap, rmap_bind, rmap_give]
  congr; funext _; congr; funext d
  exact congrArg give (loadEntries_bare k ld _ _ .nil)

theorem loadInside_bare (ver : Ver) (part last : Bool) (ld : Rd Cell Val) : loadInside ver part last (rmap Val.bare ld) = rmap Val.bare (loadInside ver part last ld) := by
  simp only [loadInside, rmap_bind, rmap_give]
  congr; funext c
  cases asSlice c with
  | error e => rfl
  | ok sl => exact congrArg give (whole_rmap part Val.bare ld sl.reader)

mutual
theorem load_bare (ver : Ver) (part : Bool) : ∀ (t : Ty) (last : Bool), load ver part t.bare last = rmap Val.bare (load ver part t last)
  | .tuple ts => by
    intro last
    simp only [Ty.bare, load, rmap_bind, rmap_pure, Val.bare]
    rw [loadItems_bare ver part ts, bind_rmap]
  | .array t => by
    intro last
    simp only [Ty.bare, load, rmap_bind, rmap_pure, Val.bare]
    rw [load_bare ver part t]
    simp only [loadArray_bare, bind_rmap]
  | .fixedArray t n => by
    intro last
    simp only [Ty.bare, load, rmap_bind, rmap_failIf, Val.bare]
    rw [load_bare ver part t]
    simp only [loadArray_bare, bind_rmap, Elems.length_bare]
  | .map k t => by
    intro last
    simp only [Ty.bare, load, rmap_bind, rmap_pure, Val.bare]
    rw [load_bare ver part t]
    simp only [loadMap_bare, bind_rmap]
  | .optional t => by
    intro last
    simp only [Ty.bare, load, rmap_bind, max_bare]
    have e1 := load_bare ver part t last
    have e2 := load_bare ver part t true
    congr; funext _; congr; funext b
    cases b
    · rfl
    · simp only [if_true]
      rw [e1, e2]
      split
      · rw [bind_rmap, rmap_bind]; rfl
      · rw [loadInside_bare, bind_rmap, rmap_bind]; rfl
  | .ref t => by
    intro last
    simp only [Ty.bare, load, rmap_bind, rmap_pure, Val.bare]
    rw [load_bare ver part t, loadInside_bare, bind_rmap]
  | .uint n => by intro last; simp only [Ty.bare, load, rmap_bind, rmap_pure, Val.bare]
  | .int n => by intro last; simp only [Ty.bare, load, rmap_bind, rmap_pure, Val.bare]
  | .varuint n => by intro last; simp only [Ty.bare, load, rmap_bind, rmap_pure, Val.bare]
  | .varint n => by intro last; simp only [Ty.bare, load, rmap_bind, rmap_pure, Val.bare]
  | .bool => by intro last; simp only [Ty.bare, load, rmap_bind, rmap_pure, Val.bare]
  | .cell => by intro last; simp only [Ty.bare, load, rmap_bind, rmap_pure, Val.bare]
  | .address => by intro last; simp only [Ty.bare, load, rmap_bind, rmap_pure, Val.bare]
  | .bytes => by intro last; simp only [Ty.bare, load, rmap_bind, rmap_pure, Val.bare]
  | .fixedBytes n => by intro last; simp only [Ty.bare, load, rmap_bind, rmap_failIf, Val.bare]
  | .string => by intro last; simp only [Ty.bare, load, rmap_bind, rmap_failIf, Val.bare]
  | .token => by intro last; simp only [Ty.bare, load, rmap_bind, rmap_pure, Val.bare]
theorem loadItems_bare (ver : Ver) (part : Bool) : ∀ (ts : Tys) (last : Bool), loadItems ver part ts.bare last = rmap Items.bare (loadItems ver part ts last)
  | .nil => fun _ => rfl
  | .cons name t r => by
    intro last
    have e1 := load_bare ver part t
    have e2 := loadItems_bare ver part r
    simp only [Tys.bare, loadItems, rmap_bind, rmap_pure, Items.bare, e1, e2, bind_rmap]
    cases r <;> rfl
end

theorem decode_bare (ver : Ver) (part : Bool) (t : Ty) (c : Cell) : decode ver part t.bare c = (decode ver part t c).map Val.bare := by
  unfold decode
  cases asSlice c with
  | error e => rfl
  | ok sl =>
    show whole part (load ver part t.bare true) sl.reader = Except.map _ (whole part (load ver part t true) sl.reader)
    rw [load_bare, whole_rmap]

end Verif.Abi
