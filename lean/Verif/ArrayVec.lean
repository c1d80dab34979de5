import Verif.Basic
/-!
# Vectors on the stack

`ArrayVec` and `ArrayVecIntoIter` (`util.rs:156-321`): the place where builders and parts of cells keep their references. The code is `unsafe`:
the elements are in an array of uninitialised memory, reads and drops take the memory as initialised, a read copies the bits and leaves them in place.

The model is a world of such vectors and iterators and of items that are told apart by their numbers. An item that is made by the user or by
`clone` is new. Memory is a list of slots; `none` is uninitialised. A copy or a drop does not change the slot, so that an item can be dropped or
handed out twice if the code does so. What the type system excludes (a vector that was moved, an item that the user does not have) does nothing.
-/
set_option linter.unusedVariables false
namespace Verif
namespace ArrayVec

abbrev Item := Nat
/-- `[MaybeUninit<T>; N]` -/
abbrev Slots := List (Option Item)

/-- Undefined behaviour: memory that is read or dropped although it is not initialised, or accessed outside of the array. -/
inductive Fault
  | uninit
  | bounds
  deriving DecidableEq

/-- The memory that is taken as initialised (`assume_init_read`, `&*ptr`, `drop_in_place`). -/
def readAt (s : Slots) (i : Nat) : Except Fault Item :=
  match s[i]? with
  | some (some x) => .ok x
  | some none => .error .uninit
  | none => .error .bounds

/-- The items at the indices `from .. from + n`, one after another. -/
def readRange (s : Slots) : Nat → Nat → Except Fault (List Item)
  | _, 0 => .ok []
  | i, n + 1 =>
    match readAt s i with
    | .error e => .error e
    | .ok x =>
      match readRange s (i + 1) n with
      | .error e => .error e
      | .ok xs => .ok (x :: xs)

/-- `util.rs:156-160` `ArrayVec`, `util.rs:282-287` `ArrayVecIntoIter`; `gone` after a move or a drop. -/
inductive Obj
  | vec (inner : Slots) (len : Nat)
  | iter (inner : Slots) (offset len : Nat)
  | gone

/-- `util.rs:166-173` `new` -/
def empty (n : Nat) : Slots := List.replicate n none

/-- `util.rs:187-201` `push` in a release build: the length is a `u8` and wraps, what was in the slot is overwritten. -/
def pushRaw (inner : Slots) (len : Nat) (x : Item) : Except Fault (Slots × Nat) :=
  if len < inner.length then .ok (inner.set len (some x), (len + 1) % 256) else .error .bounds

/-- `util.rs:245-252` the loop of `clone`. -/
def cloneGo : List Item → Slots → Nat → Except Fault (Slots × Nat)
  | [], inner, len => .ok (inner, len)
  | x :: xs, inner, len =>
    match pushRaw inner len x with
    | .error e => .error e
    | .ok (inner, len) => cloneGo xs inner len

/-- What a program can do. -/
inductive Op
  | make
  | new
  | push (v : Nat) (x : Item)
  | get (v n : Nat)
  | len (v : Nat)
  | asRef (v : Nat)
  | clone (v : Nat)
  | drop (v : Nat)
  | intoIter (v : Nat)
  | next (v : Nat)
  | intoInner (v : Nat)
  | dropItem (x : Item)

/-- What it sees. -/
inductive Ans
  | none
  | item (x : Option Item)
  | items (l : List Item)
  | count (n : Nat)
  deriving DecidableEq

structure World where
  /-- the number of the next item -/
  fresh : Nat
  objs : List Obj
  /-- items that the user has -/
  user : List Item
  /-- items that were dropped, with repetitions -/
  dropped : List Item

/-- One operation on vectors of capacity `n`. -/
def step (n : Nat) (w : World) : Op → Except Fault (World × Ans)
  | .make => .ok ({ w with fresh := w.fresh + 1, user := w.user ++ [w.fresh] }, .item (some w.fresh))
  | .new => .ok ({ w with objs := w.objs ++ [.vec (empty n) 0] }, .none)
  | .push v x =>
    match w.objs[v]? with
    | some (.vec inner len) =>
      if x ∈ w.user then
        match pushRaw inner len x with
        | .error e => .error e
        | .ok (inner, len) => .ok ({ w with objs := w.objs.set v (.vec inner len), user := w.user.erase x }, .none)
      else .ok (w, .none)
    | _ => .ok (w, .none)
  /- `util.rs:203-212` -/
  | .get v i =>
    match w.objs[v]? with
    | some (.vec inner len) =>
      if i < len then
        match readAt inner i with
        | .error e => .error e
        | .ok x => .ok (w, .item (some x))
      else .ok (w, .item none)
    | _ => .ok (w, .none)
  /- `util.rs:175-185`, and `size_hint` of the iterator, `util.rs:304-308` -/
  | .len v =>
    match w.objs[v]? with
    | some (.vec _ len) => .ok (w, .count len)
    | some (.iter _ off len) => .ok (w, .count (len - off))
    | _ => .ok (w, .none)
  /- `util.rs:236-242` -/
  | .asRef v =>
    match w.objs[v]? with
    | some (.vec inner len) =>
      match readRange inner 0 len with
      | .error e => .error e
      | .ok l => .ok (w, .items l)
    | _ => .ok (w, .none)
  /- `util.rs:244-253`: the items are cloned one after another -/
  | .clone v =>
    match w.objs[v]? with
    | some (.vec inner len) =>
      match readRange inner 0 len with
      | .error e => .error e
      | .ok l =>
        match cloneGo (List.range' w.fresh l.length) (empty n) 0 with
        | .error e => .error e
        | .ok (inner', len') => .ok ({ w with fresh := w.fresh + l.length, objs := w.objs ++ [.vec inner' len'] }, .none)
    | _ => .ok (w, .none)
  /- `util.rs:255-265`, `util.rs:311-321` -/
  | .drop v =>
    match w.objs[v]? with
    | some (.vec inner len) =>
      match readRange inner 0 len with
      | .error e => .error e
      | .ok l => .ok ({ w with objs := w.objs.set v .gone, dropped := w.dropped ++ l }, .none)
    | some (.iter inner off len) =>
      match readRange inner off (len - off) with
      | .error e => .error e
      | .ok l => .ok ({ w with objs := w.objs.set v .gone, dropped := w.dropped ++ l }, .none)
    | _ => .ok (w, .none)
  /- `util.rs:267-280`: the array is copied, the vector is not dropped -/
  | .intoIter v =>
    match w.objs[v]? with
    | some (.vec inner len) => .ok ({ w with objs := w.objs.set v (.iter inner 0 len) }, .none)
    | _ => .ok (w, .none)
  /- `util.rs:292-302` -/
  | .next v =>
    match w.objs[v]? with
    | some (.iter inner off len) =>
      if off ≥ len then .ok (w, .item none)
      else
        match readAt inner off with
        | .error e => .error e
        | .ok x => .ok ({ w with objs := w.objs.set v (.iter inner (off + 1) len), user := w.user ++ [x] }, .item (some x))
    | _ => .ok (w, .none)
  /- `util.rs:214-226`: the caller takes the first `len` items of the array -/
  | .intoInner v =>
    match w.objs[v]? with
    | some (.vec inner len) =>
      match readRange inner 0 len with
      | .error e => .error e
      | .ok l => .ok ({ w with objs := w.objs.set v .gone, user := w.user ++ l }, .items l)
    | _ => .ok (w, .none)
  | .dropItem x => if x ∈ w.user then .ok ({ w with user := w.user.erase x, dropped := w.dropped ++ [x] }, .none) else .ok (w, .none)

/-- The world at the start. -/
def start : World := ⟨0, [], [], []⟩

/-- A history: the answers and the world that is left. -/
def run (n : Nat) : World → List Op → Except Fault (World × List Ans)
  | w, [] => .ok (w, [])
  | w, o :: os =>
    match step n w o with
    | .error e => .error e
    | .ok (w', a) =>
      match run n w' os with
      | .error e => .error e
      | .ok (w'', as) => .ok (w'', a :: as)

end ArrayVec
end Verif
