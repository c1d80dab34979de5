import Verif.Slice
/-!
# Iterators over the children of a cell

`RefsIter` and `ClonedRefsIter` (`cell/mod.rs:427-620`). A cell is given by the list of its references; the two iterators differ only in that the items are borrowed or cloned.
-/
set_option linter.unusedVariables false
namespace Verif

/-- `cell/mod.rs:429-433` `RefsIter`: `refs` are the references of the cell, `max` and `index` the ends of what remains. -/
structure RefsIter (ρ : Type) where
  refs : List ρ
  max : Nat
  index : Nat

namespace RefsIter
variable {ρ : Type}

/-- `cell/mod.rs:244-250` `DynCell::references` -/
def ofCell (refs : List ρ) : RefsIter ρ := ⟨refs, refs.length, 0⟩
/-- `cell/slice.rs:1778-1784` `CellSlice::references` -/
def ofSlice (s : CSlice ρ) : RefsIter ρ := ⟨s.refs, s.range.refsEnd, s.range.refsStart⟩
/-- `cell/mod.rs:444-450` `peek` -/
def peek (it : RefsIter ρ) : Option ρ := if it.index ≥ it.max then none else it.refs[it.index]?
/-- `cell/mod.rs:464-470` `peek_prev` -/
def peekPrev (it : RefsIter ρ) : Option ρ := if it.index > 0 then it.refs[it.index - 1]? else none
/-- `cell/mod.rs:504-512` `next` -/
def next (it : RefsIter ρ) : Option ρ × RefsIter ρ :=
  if it.index ≥ it.max then (none, it) else (it.refs[it.index]?, { it with index := it.index + 1 })
/-- `cell/mod.rs:523-530` `next_back` -/
def nextBack (it : RefsIter ρ) : Option ρ × RefsIter ρ :=
  if it.max > it.index then (it.refs[it.max - 1]?, { it with max := it.max - 1 }) else (none, it)
/-- `cell/mod.rs:515-518`, `535-537` `size_hint`, `len` -/
def len (it : RefsIter ρ) : Nat := it.max - it.index

/-- What a user of an iterator may do. -/
inductive Op
  | next
  | nextBack
  | peek
  | len

/-- What the user sees. -/
inductive Seen (ρ : Type)
  | item (c : Option ρ)
  | count (n : Nat)

/-- One step. -/
def step (it : RefsIter ρ) : Op → Seen ρ × RefsIter ρ
  | .next => (.item it.next.1, it.next.2)
  | .nextBack => (.item it.nextBack.1, it.nextBack.2)
  | .peek => (.item it.peek, it)
  | .len => (.count it.len, it)

/-- A history of steps: what was seen, and the iterator that is left. -/
def run : RefsIter ρ → List Op → List (Seen ρ) × RefsIter ρ
  | it, [] => ([], it)
  | it, o :: os => ((it.step o).1 :: ((it.step o).2.run os).1, ((it.step o).2.run os).2)

end RefsIter
end Verif
