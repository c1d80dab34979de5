import Verif.OutActions
import Verif.TransactionProps
/-
C63: output actions.
-/
set_option linter.unusedVariables false
set_option linter.unusedSimpArgs false
namespace Verif

/-! ### Model -/

/-- `models/vm/out_actions.rs:24-45` `OutActionsRevIter::next`; the state is the slice. -/
def actionNext (s : CSlice Cell) : Option (Except Err OutAction) × CSlice Cell :=
  match Rd.ref s with
  | (.error _, s) => if s.range.isDataEmpty && s.range.isRefsEmpty then (none, s) else (some (.error .invalidData), s)
  | (.ok prev, s) => match outAction.load s with
    | (.error e, s) => (some (.error e), s)
    | (.ok a, s) =>
      if prev.exotic then (some (.error .unexpectedExoticCell), s)
      else if prev.bits.length ≤ 1023 ∧ prev.refs.length ≤ 4 then (some (.ok a), Sl.reader ⟨prev.bits, prev.refs⟩)
      else (some (.error .cellUnderflow), s)

/-! ### Specification -/

/-- A list of actions, the last one first: either nothing at all, or a reference to the list of the earlier actions and an action (and whatever
may follow). -/
inductive ActionList : Enc Cell → List OutAction → Prop
  | nil : ActionList Enc.nil []
  | cons {prev : Cell} {a : OutAction} {e rest : Enc Cell} {l : List OutAction} (hx : prev.exotic = false)
      (hf : prev.bits.length ≤ 1023 ∧ prev.refs.length ≤ 4) (ha : outAction.R a e) (hl : ActionList (prev.bits, prev.refs) l) :
      ActionList (Enc.ref prev ++ (e ++ rest)) (a :: l)

/-! ### Lemmas -/

theorem empty_range {s : CSlice Cell} (w : s.WF) : (s.range.isDataEmpty && s.range.isRefsEmpty) = true ↔ s.contents = Enc.nil := by
  have h1 : s.bits.length = s.range.bitsEnd - s.range.bitsStart := CSlice.bits_length s
  have h2 : s.refList.length = s.range.refsEnd - s.range.refsStart := CSlice.refList_length w
  unfold SliceRange.isDataEmpty SliceRange.isRefsEmpty
  rw [Bool.and_eq_true, decide_eq_true_iff, decide_eq_true_iff]
  constructor
  · rintro ⟨a, b⟩
    have e1 : s.bits = [] := List.eq_nil_of_length_eq_zero (by omega)
    have e2 : s.refList = [] := List.eq_nil_of_length_eq_zero (by omega)
    show (s.bits, s.refList) = ([], [])
    rw [e1, e2]
  · intro h
    have e1 : s.bits = [] := congrArg Prod.fst h
    have e2 : s.refList = [] := congrArg Prod.snd h
    rw [e1] at h1; rw [e2] at h2
    simp only [List.length_nil] at h1 h2
    omega

theorem ref_none {s : CSlice Cell} (w : s.WF) (h : s.refList = []) : Rd.ref s = (.error .cellUnderflow, s) := (Rd.ref_spec w).2 h

theorem actionNext_nil {s : CSlice Cell} (w : s.WF) (h : s.contents = Enc.nil) : actionNext s = (none, s) := by
  unfold actionNext
  rw [ref_none w (congrArg Prod.snd h)]
  dsimp only
  rw [if_pos ((empty_range w).2 h)]

theorem actionNext_cons {s : CSlice Cell} (w : s.WF) {prev : Cell} {a : OutAction} {e rest : Enc Cell} (hx : prev.exotic = false)
    (hf : prev.bits.length ≤ 1023 ∧ prev.refs.length ≤ 4) (ha : outAction.R a e) (hc : s.contents = Enc.ref prev ++ (e ++ rest)) :
    actionNext s = (some (.ok a), Sl.reader ⟨prev.bits, prev.refs⟩) := by
  obtain ⟨s1, h1, w1, c1, _⟩ := Rd.reads_ref prev s _ w hc
  obtain ⟨s2, h2, _⟩ := outAction_sound.ld.reads a e ha s1 rest w1 c1
  unfold actionNext
  rw [h1]; dsimp only
  rw [h2]; dsimp only
  rw [if_neg (by rw [hx]; decide), if_pos hf]

/-- One call that yields an action has found one, and one that yields nothing has found nothing. -/
theorem actionNext_inv {s : CSlice Cell} (w : s.WF) :
    ((actionNext s).1 = none → s.contents = Enc.nil) ∧
    (∀ a, (actionNext s).1 = some (.ok a) → ∃ prev e rest, prev.exotic = false ∧ (prev.bits.length ≤ 1023 ∧ prev.refs.length ≤ 4) ∧ outAction.R a e ∧
      s.contents = Enc.ref prev ++ (e ++ rest) ∧ (actionNext s).2 = Sl.reader ⟨prev.bits, prev.refs⟩) := by
  unfold actionNext
  cases hr : s.refList with
  | nil =>
    rw [ref_none w hr]
    dsimp only
    by_cases h : (s.range.isDataEmpty && s.range.isRefsEmpty) = true
    · rw [if_pos h]
      exact ⟨fun _ => (empty_range w).1 h, fun a h => (by cases h)⟩
    · rw [if_neg h]
      exact ⟨fun h => (by cases h), fun a h => (by cases h)⟩
  | cons prev rs =>
    obtain ⟨s1, h1, w1, c1, _⟩ := Rd.reads_ref prev s (s.bits, rs) w (by show (s.bits, s.refList) = _; rw [hr]; rfl)
    have hc : s.contents = Enc.ref prev ++ s1.contents := by rw [c1]; show (s.bits, s.refList) = _; rw [hr]; rfl
    rw [h1]
    dsimp only
    generalize hl : outAction.load s1 = out
    obtain ⟨o, s2⟩ := out
    cases o with
    | error e => exact ⟨fun h => (by cases h), fun a h => (by cases h)⟩
    | ok a =>
      dsimp only
      obtain ⟨e, hR, c2, _⟩ := outAction_sound.ld.exact _ _ _ w1 hl
      by_cases hx : prev.exotic = true
      · rw [if_pos hx]
        exact ⟨fun h => (by cases h), fun a h => (by cases h)⟩
      rw [if_neg hx]
      by_cases hf : prev.bits.length ≤ 1023 ∧ prev.refs.length ≤ 4
      · rw [if_pos hf]
        refine ⟨fun h => (by cases h), fun b hb => ?_⟩
        cases hb
        exact ⟨prev, e, s2.contents, by cases h : prev.exotic; rfl; exact absurd h hx, hf, hR, by rw [hc, c2], rfl⟩
      · rw [if_neg hf]
        exact ⟨fun h => (by cases h), fun a h => (by cases h)⟩

/-! ### C63 -/

/-- **C63, codec.** Every action whose mode can be written is stored in exactly its documented form, loaded back from it whatever follows, and
nothing else is accepted. -/
theorem C63_codec_partial : outAction.Sound := outAction_sound

/-- **C63, iteration.** Over a list of actions the iterator yields exactly its actions, the last one first, and then ends for good. -/
theorem C63_iter {s : CSlice Cell} (w : s.WF) {l : List OutAction} (h : ActionList s.contents l) : Yields actionNext s (l.map .ok) := by
  refine yields_of_step (I := fun s out => s.WF ∧ ∃ l, ActionList s.contents l ∧ out = l.map .ok) ?_ ?_ ⟨w, l, h, rfl⟩
  · rintro s ⟨w, l, hl, ho⟩
    cases l with
    | cons a t => cases ho
    | nil =>
      generalize hc : s.contents = c at hl
      cases hl
      rw [actionNext_nil w hc]
      exact ⟨rfl, w, [], by rw [hc]; exact .nil, rfl⟩
  · rintro s p ps ⟨w, l, hl, ho⟩
    generalize hc : s.contents = c at hl
    cases hl with
    | nil => cases ho
    | @cons prev a e rest l hx hf ha hl =>
      obtain ⟨rfl, rfl⟩ := List.cons.inj ho
      rw [actionNext_cons w hx hf ha hc]
      obtain ⟨w', c'⟩ := Tlb.reader_contents hf
      exact ⟨rfl, w', l, by rw [c']; exact hl, rfl⟩

/-- **C63, exactness.** A run that ends without an error has been over a list of actions, whose actions it has yielded. -/
theorem C63_exact (l : List OutAction) : ∀ {s : CSlice Cell} (w : s.WF),
    calls actionNext (l.length + 1) s = l.map (fun a => some (.ok a)) ++ [none] → ActionList s.contents l := by
  induction l with
  | nil =>
    intro s w h
    have h : [(actionNext s).1] = [none] := h
    rw [(actionNext_inv w).1 (List.cons.inj h).1]
    exact .nil
  | cons a t ih =>
    intro s w h
    have h : (actionNext s).1 :: calls actionNext (t.length + 1) (actionNext s).2 = some (.ok a) :: (t.map (fun a => some (.ok a)) ++ [none]) := h
    obtain ⟨h1, h2⟩ := List.cons.inj h
    obtain ⟨prev, e, rest, hx, hf, hR, hc, hn⟩ := (actionNext_inv w).2 a h1
    rw [hn] at h2
    obtain ⟨w', c'⟩ := Tlb.reader_contents hf
    have := ih w' h2
    rw [c'] at this
    rw [hc]
    exact .cons hx hf hR this

/-- **C63, no panics.** On any slice a call neither panics nor leaves its cell. -/
theorem C63_safe {s : CSlice Cell} (w : s.WF) : (actionNext s).2.WF ∧ (actionNext s).1 ≠ some (.error .panic) ∧ (actionNext s).1 ≠ some (.error .fault) := by
  unfold actionNext
  cases hr : s.refList with
  | nil =>
    rw [ref_none w hr]
    dsimp only
    by_cases h : (s.range.isDataEmpty && s.range.isRefsEmpty) = true
    · rw [if_pos h]; exact ⟨w, by simp, by simp⟩
    · rw [if_neg h]; exact ⟨w, by simp, by simp⟩
  | cons prev rs =>
    obtain ⟨s1, h1, w1, c1, _⟩ := Rd.reads_ref prev s (s.bits, rs) w (by show (s.bits, s.refList) = _; rw [hr]; rfl)
    rw [h1]
    dsimp only
    have hs := outAction_sound.ld.safe s1 w1
    generalize hl : outAction.load s1 = out at *
    obtain ⟨o, s2⟩ := out
    dsimp only at hs
    cases o with
    | error e =>
      refine ⟨hs.1, ?_, ?_⟩ <;> intro h <;> cases h
      · exact hs.2.2.2 rfl
      · exact hs.2.2.1 rfl
    | ok a =>
      dsimp only
      by_cases hx : prev.exotic = true
      · rw [if_pos hx]; exact ⟨hs.1, by simp, by simp⟩
      rw [if_neg hx]
      by_cases hf : prev.bits.length ≤ 1023 ∧ prev.refs.length ≤ 4
      · rw [if_pos hf]; exact ⟨(Tlb.reader_contents hf).1, by simp, by simp⟩
      · rw [if_neg hf]; exact ⟨hs.1, by simp, by simp⟩

/-! ### Counterexamples -/

/-- **C63, counterexample.** A slice with data but no references yields the same error for ever: a loop over the iterator that skips errors
does not end. -/
theorem C63_endless : ∃ s : CSlice Cell, s.WF ∧ ∀ k, calls actionNext k s = List.replicate k (some (.error .invalidData)) := by
  obtain ⟨w, c⟩ := Tlb.reader_contents (b := [true]) (r := []) ⟨by decide, by decide⟩
  refine ⟨Sl.reader ⟨[true], []⟩, w, fun k => ?_⟩
  have h : actionNext (Sl.reader ⟨[true], []⟩) = (some (.error .invalidData), Sl.reader ⟨[true], []⟩) := by
    unfold actionNext
    rw [ref_none w (congrArg Prod.snd c)]
    dsimp only
    rw [if_neg (by decide)]
  induction k with
  | zero => rfl
  | succ k ih =>
    rw [List.replicate_succ, ← ih]
    show (actionNext _).1 :: calls actionNext k (actionNext _).2 = _
    rw [h]

def exActionErr : CSlice Cell := Sl.reader ⟨natBits 32 0 ++ natBits 32 0xad4de08e, [.mk false [] [], .mk false [] [], .mk false [true] []]⟩

/-- The code set by an action. -/
def codeBits : Option (Except Err OutAction) → Option Bits
  | some (.ok (.setCode c)) => some c.bits
  | _ => none
/-- The mode of a change of libraries. -/
def libMode : Except Err OutAction → Option Nat
  | .ok (.changeLib v) => some v.mode
  | _ => none

/-- **C63, counterexample.** After an action that cannot be read the iterator goes on in the middle of it: here an error is followed by an
action that is not in the list. -/
theorem C63_after_error : (calls actionNext 3 exActionErr).map (fun o => o.map fun r => r.toOption.isSome) = [some false, some true, none] ∧
    codeBits (actionNext (actionNext exActionErr).2).1 = some [true] := by decide +kernel

/-- **C63, counterexample.** The highest bit of the mode of a change of libraries is lost. -/
theorem C63_mode_lost :
    (outAction.store (.changeLib ⟨0x92, .cell (.mk false [] [])⟩) .new).1 = .ok () ∧
    libMode (outAction.load (outAction.store (.changeLib ⟨0x92, .cell (.mk false [] [])⟩) .new).2.asSlice).1 = some 0x12 := by decide +kernel

/-! ### The hypotheses can be met -/

def exActionList : Cell :=
  .mk false (outAction.enc (.sendMsg ⟨64, .mk false [true] []⟩)).1 [.mk false (outAction.enc (.reserve ⟨2, ⟨1000, none⟩⟩)).1 [.mk false [] []], .mk false [true] []]

/-- First a reservation, then a message. -/
example : ActionList (exActionList.bits, exActionList.refs) [.sendMsg ⟨64, .mk false [true] []⟩, .reserve ⟨2, ⟨1000, none⟩⟩] := by
  have h1 : outAction.ok (.sendMsg ⟨64, .mk false [true] []⟩) := by constructor <;> tlb_ok
  have h2 : outAction.ok (.reserve ⟨2, ⟨1000, none⟩⟩) := by constructor <;> tlb_ok
  have c1 := outAction_sound.st.canon _ h1
  have c2 := outAction_sound.st.canon _ h2
  have nil : ActionList (([], []) : Enc Cell) [] := .nil
  have l2 := ActionList.cons (rest := Enc.nil) (prev := .mk false [] []) rfl ⟨by decide, by decide⟩ c2 nil
  rw [Enc.append_nil] at l2
  have l1 := ActionList.cons (rest := Enc.nil) (prev := .mk false (outAction.enc (.reserve ⟨2, ⟨1000, none⟩⟩)).1 [.mk false [] []]) rfl (by decide +kernel) c1 l2
  rw [Enc.append_nil] at l1
  exact l1

end Verif
