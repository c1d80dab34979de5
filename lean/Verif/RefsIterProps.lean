import Verif.RefsIter
/-!
# C90: iterators over children

Specification: a queue with two ends, a plain list.
-/
set_option linter.unusedVariables false
namespace Verif
namespace RefsIter
variable {ρ : Type}

/-! ## Specification -/

/-- A step of a queue with two ends. -/
def queueStep (q : List ρ) : Op → Seen ρ × List ρ
  | .next => (.item q.head?, q.tail)
  | .nextBack => (.item q.getLast?, q.dropLast)
  | .peek => (.item q.head?, q)
  | .len => (.count q.length, q)

/-- What is seen on a queue, and what is left. -/
def queueRun : List ρ → List Op → List (Seen ρ) × List ρ
  | q, [] => ([], q)
  | q, o :: os => ((queueStep q o).1 :: (queueRun (queueStep q o).2 os).1, (queueRun (queueStep q o).2 os).2)

/-- What was taken from the front, in this order. -/
def fronts : List Op → List (Seen ρ) → List ρ
  | .next :: os, .item (some c) :: ss => c :: fronts os ss
  | _ :: os, _ :: ss => fronts os ss
  | _, _ => []

/-- What was taken from the back, in this order. -/
def backs : List Op → List (Seen ρ) → List ρ
  | .nextBack :: os, .item (some c) :: ss => c :: backs os ss
  | _ :: os, _ :: ss => backs os ss
  | _, _ => []

/-- How often an item was asked for. -/
def asked (os : List Op) : Nat := os.countP fun o => match o with | .next => true | .nextBack => true | _ => false

/-! ## Lemmas -/

/-- What remains. -/
def rest (it : RefsIter ρ) : List ρ := (it.refs.drop it.index).take (it.max - it.index)

theorem rest_next (it : RefsIter ρ) (h : it.max ≤ it.refs.length) : it.next.1 = it.rest.head? ∧ it.next.2.rest = it.rest.tail ∧ it.next.2.max ≤ it.next.2.refs.length := by
  unfold next rest
  by_cases hi : it.index ≥ it.max
  · rw [if_pos hi]
    have e : it.max - it.index = 0 := by omega
    simp [e, h]
  · rw [if_neg hi]
    have hl : it.index < it.refs.length := by omega
    obtain ⟨n, hn⟩ : ∃ n, it.max - it.index = n + 1 := ⟨it.max - it.index - 1, by omega⟩
    have e : it.max - (it.index + 1) = n := by omega
    refine ⟨?_, ?_, h⟩
    · show it.refs[it.index]? = _
      rw [List.drop_eq_getElem_cons hl, hn, List.take_succ_cons, List.head?_cons, List.getElem?_eq_getElem hl]
    · show List.take (it.max - (it.index + 1)) (List.drop (it.index + 1) it.refs) = _
      rw [List.drop_eq_getElem_cons hl, hn, e, List.take_succ_cons, List.tail_cons]

theorem rest_back (it : RefsIter ρ) (h : it.max ≤ it.refs.length) : it.nextBack.1 = it.rest.getLast? ∧ it.nextBack.2.rest = it.rest.dropLast ∧
    it.nextBack.2.max ≤ it.nextBack.2.refs.length := by
  unfold nextBack rest
  by_cases hi : it.max > it.index
  · rw [if_pos hi]
    have hl : it.max - it.index ≤ (it.refs.drop it.index).length := by simp; omega
    have hlen : (List.take (it.max - it.index) (List.drop it.index it.refs)).length = it.max - it.index := by simp; omega
    refine ⟨?_, ?_, ?_⟩
    · rw [List.getLast?_eq_getElem?, hlen, List.getElem?_take, List.getElem?_drop, if_pos (by omega)]
      rw [show it.index + (it.max - it.index - 1) = it.max - 1 by omega]
    · show List.take (it.max - 1 - it.index) (List.drop it.index it.refs) = _
      rw [List.dropLast_eq_take, hlen, List.take_take]; congr 1; omega
    · show it.max - 1 ≤ it.refs.length; omega
  · rw [if_neg hi]
    have e : it.max - it.index = 0 := by omega
    simp [e, h]

theorem rest_peek (it : RefsIter ρ) (h : it.max ≤ it.refs.length) : it.peek = it.rest.head? := by
  rw [← (rest_next it h).1]; unfold peek next
  by_cases hi : it.index ≥ it.max
  · rw [if_pos hi, if_pos hi]
  · rw [if_neg hi, if_neg hi]

theorem rest_len (it : RefsIter ρ) (h : it.max ≤ it.refs.length) : it.len = it.rest.length := by
  unfold len rest; simp; omega

theorem step_queue (it : RefsIter ρ) (h : it.max ≤ it.refs.length) (o : Op) : (it.step o).1 = (queueStep it.rest o).1 ∧ (it.step o).2.rest = (queueStep it.rest o).2 ∧
    (it.step o).2.max ≤ (it.step o).2.refs.length := by
  cases o with
  | next => obtain ⟨a, b, c⟩ := rest_next it h; exact ⟨by show Seen.item _ = Seen.item _; rw [a], b, c⟩
  | nextBack => obtain ⟨a, b, c⟩ := rest_back it h; exact ⟨by show Seen.item _ = Seen.item _; rw [a], b, c⟩
  | peek => exact ⟨by show Seen.item _ = Seen.item _; rw [rest_peek it h], rfl, h⟩
  | len => exact ⟨by show Seen.count _ = Seen.count _; rw [rest_len it h], rfl, h⟩

theorem run_queue (it : RefsIter ρ) (h : it.max ≤ it.refs.length) (os : List Op) : (it.run os).1 = (queueRun it.rest os).1 ∧ (it.run os).2.rest = (queueRun it.rest os).2 := by
  induction os generalizing it with
  | nil => exact ⟨rfl, rfl⟩
  | cons o os ih =>
    obtain ⟨a, b, c⟩ := step_queue it h o
    obtain ⟨d, e⟩ := ih _ c
    constructor
    · show (it.step o).1 :: ((it.step o).2.run os).1 = _
      rw [a, d, b]; rfl
    · show ((it.step o).2.run os).2.rest = _
      rw [e, b]; rfl

theorem queue_parts (q : List ρ) (os : List Op) : fronts os (queueRun q os).1 ++ (queueRun q os).2 ++ (backs os (queueRun q os).1).reverse = q ∧
    (queueRun q os).2.length = q.length - asked os := by
  induction os generalizing q with
  | nil => simp [queueRun, fronts, backs, asked]
  | cons o os ih =>
    obtain ⟨i, l⟩ := ih (queueStep q o).2
    cases o with
    | next =>
      cases q with
      | nil => refine ⟨?_, ?_⟩
               · simpa [queueRun, queueStep, fronts, backs] using i
               · rw [show (queueRun [] (.next :: os)).2 = (queueRun (queueStep ([] : List ρ) .next).2 os).2 from rfl, l]; simp [queueStep]
      | cons c q =>
        refine ⟨?_, ?_⟩
        · simpa [queueRun, queueStep, fronts, backs] using i
        · rw [show (queueRun (c :: q) (.next :: os)).2 = (queueRun (queueStep (c :: q) .next).2 os).2 from rfl, l]
          simp only [queueStep, asked, List.countP_cons]; simp
    | nextBack =>
      rcases List.eq_nil_or_concat q with rfl | ⟨q, c, rfl⟩
      · refine ⟨?_, ?_⟩
        · simpa [queueRun, queueStep, fronts, backs] using i
        · rw [show (queueRun [] (.nextBack :: os)).2 = (queueRun (queueStep ([] : List ρ) .nextBack).2 os).2 from rfl, l]; simp [queueStep]
      · refine ⟨?_, ?_⟩
        · simp only [queueStep, List.concat_eq_append, List.dropLast_concat] at i
          simp only [queueRun, queueStep, fronts, backs, List.concat_eq_append, List.dropLast_concat, List.getLast?_concat, List.reverse_cons]
          rw [← List.append_assoc, i]
        · rw [show (queueRun (q.concat c) (.nextBack :: os)).2 = (queueRun (queueStep (q.concat c) .nextBack).2 os).2 from rfl, l]
          simp only [queueStep, asked, List.countP_cons]; simp
    | peek => exact ⟨by simpa [queueRun, queueStep, fronts, backs] using i, by
        rw [show (queueRun q (.peek :: os)).2 = (queueRun (queueStep q .peek).2 os).2 from rfl, l]; simp [queueStep, asked]⟩
    | len => exact ⟨by simpa [queueRun, queueStep, fronts, backs] using i, by
        rw [show (queueRun q (.len :: os)).2 = (queueRun (queueStep q .len).2 os).2 from rfl, l]; simp [queueStep, asked]⟩

/-! ## C90 -/

/-- Whatever is done with an iterator over the children of a cell, the user sees what a queue with two ends holding the children shows. -/
theorem C90_cell (refs : List ρ) (os : List Op) : ((ofCell refs).run os).1 = (queueRun refs os).1 := by
  have := (run_queue (ofCell refs) (Nat.le_refl _) os).1
  rwa [show (ofCell refs).rest = refs by simp [rest, ofCell]] at this

example : ((ofCell [10, 11, 12]).run [.next, .len, .nextBack, .peek, .next, .next]).1 = (queueRun [10, 11, 12] [.next, .len, .nextBack, .peek, .next, .next]).1 := C90_cell _ _
example : (queueRun [10, 11, 12] [.next, .len, .nextBack, .peek, .next, .next]).1 =
    [.item (some 10), .count 2, .item (some 12), .item (some 11), .item (some 11), .item none] := rfl

/-- Likewise for a slice, with the references in its window. -/
theorem C90_slice (s : CSlice ρ) (h : s.WF) (os : List Op) : ((ofSlice s).run os).1 = (queueRun s.refList os).1 :=
  (run_queue (ofSlice s) h.rend_le os).1

/-- Every child comes exactly once: those taken from the front, those that remain and those taken from the back, reversed, are the children. As many remain as were not asked for. -/
theorem C90_once (refs : List ρ) (os : List Op) : fronts os ((ofCell refs).run os).1 ++ ((ofCell refs).run os).2.rest ++ (backs os ((ofCell refs).run os).1).reverse = refs ∧
    ((ofCell refs).run os).2.len = refs.length - asked os := by
  have e : (ofCell refs).rest = refs := by simp [rest, ofCell]
  obtain ⟨a, b⟩ := run_queue (ofCell refs) (Nat.le_refl _) os
  rw [e] at a b
  obtain ⟨c, d⟩ := queue_parts refs os
  refine ⟨by rw [a, b]; exact c, ?_⟩
  have hm : ∀ (it : RefsIter ρ) (os : List Op), it.max ≤ it.refs.length → (it.run os).2.max ≤ (it.run os).2.refs.length := by
    intro it os
    induction os generalizing it with
    | nil => exact id
    | cons o os ih => intro h; exact ih _ (step_queue it h o).2.2
  rw [rest_len _ (hm _ os (Nat.le_refl _)), b, d]

/-- An iterator shows with `peek` what `next` returns. -/
theorem C90_peek (it : RefsIter ρ) : it.peek = it.next.1 := by
  unfold peek next
  by_cases hi : it.index ≥ it.max
  · rw [if_pos hi, if_pos hi]
  · rw [if_neg hi, if_neg hi]

/-- `peek_prev` is documented to show what `next_back` returns. It does not: on a new iterator over any cell with children it shows nothing. -/
theorem C90_peek_prev_wrong (c : ρ) (refs : List ρ) : (ofCell (c :: refs)).peekPrev = none ∧ (ofCell (c :: refs)).nextBack.1 = (c :: refs).getLast? ∧ (c :: refs).getLast? ≠ none := by
  refine ⟨rfl, ?_, by simp⟩
  have := (rest_back (ofCell (c :: refs)) (Nat.le_refl _)).1
  rwa [show (ofCell (c :: refs)).rest = c :: refs by simp [rest, ofCell]] at this

/-- What it shows is what `next` returned last, … -/
theorem C90_peek_prev_partial (it : RefsIter ρ) (c : ρ) (h : it.next.1 = some c) : it.next.2.peekPrev = some c := by
  unfold next at h ⊢
  by_cases hi : it.index ≥ it.max
  · rw [if_pos hi] at h; cases h
  · rw [if_neg hi] at h ⊢
    show (if it.index + 1 > 0 then it.refs[it.index + 1 - 1]? else none) = some c
    rw [if_pos (by omega)]; exact h

/-- … and for the iterator over a slice the reference in front of its window: `peek_prev` leaves the window. -/
theorem C90_peek_prev_outside (s : CSlice ρ) (h : s.WF) (hs : 0 < s.range.refsStart) : (ofSlice s).peekPrev = s.refs[s.range.refsStart - 1]? ∧ (ofSlice s).peekPrev ≠ none := by
  have h1 := h.rstart_le; have h2 := h.rend_le
  have e : (ofSlice s).peekPrev = s.refs[s.range.refsStart - 1]? := if_pos hs
  refine ⟨e, ?_⟩
  rw [e, List.getElem?_eq_getElem (by omega)]; simp

/-- A slice whose window holds the second of two references shows the first. -/
example : (ofSlice (⟨[], [7, 8], ⟨0, 0, 1, 2⟩⟩ : CSlice Nat)).peekPrev = some 7 ∧ (⟨[], [7, 8], ⟨0, 0, 1, 2⟩⟩ : CSlice Nat).refList = [8] := by decide

end RefsIter
end Verif
