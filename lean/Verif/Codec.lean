import Verif.SliceProps
/-
A small vocabulary for the `Store` / `Load` implementations of the data models: programs over a cell
builder or a cell slice that stop at the first error (`ok!`, `?`), and what it means that such a program
writes or reads a given encoding.
-/
set_option linter.unusedVariables false
set_option linter.unusedSimpArgs false
namespace Verif
open DataBuilder (StoreOp)

/-- A program over a mutable state `σ` that may fail; the state is kept on failure, as `&mut` does. -/
def Prog (σ α : Type) : Type := σ → Except Err α × σ

namespace Prog

/-- The `ok!` / `?` sequencing: stop at the first error. -/
def bind {σ α β : Type} (p : Prog σ α) (f : α → Prog σ β) : Prog σ β := fun s =>
  match p s with
  | (.ok a, s') => f a s'
  | (.error e, s') => (.error e, s')

instance {σ : Type} : Monad (Prog σ) where
  pure a := fun s => (.ok a, s)
  bind := Prog.bind

/-- `return Err(e)`. -/
def fail {σ α : Type} (e : Err) : Prog σ α := fun s => (.error e, s)

/-- `if !cond { return Err(e) }`. -/
def check {σ : Type} (c : Bool) (e : Err) : Prog σ Unit := if c then pure () else fail e

theorem bind_eq {σ α β : Type} (p : Prog σ α) (f : α → Prog σ β) : (p >>= f) = Prog.bind p f := rfl

theorem bind_ok {σ α β : Type} {p : Prog σ α} {f : α → Prog σ β} {s s' : σ} {a : α} (h : p s = (.ok a, s')) :
    (p >>= f) s = f a s' := by
  show Prog.bind p f s = _
  unfold Prog.bind; rw [h]

theorem bind_err {σ α β : Type} {p : Prog σ α} {f : α → Prog σ β} {s s' : σ} {e : Err} (h : p s = (.error e, s')) :
    (p >>= f) s = (.error e, s') := by
  show Prog.bind p f s = _
  unfold Prog.bind; rw [h]

theorem pure_eq {σ α : Type} (a : α) (s : σ) : (pure a : Prog σ α) s = (.ok a, s) := rfl

/-- Inversion of a successful sequence. -/
theorem bind_inv {σ α β : Type} {p : Prog σ α} {f : α → Prog σ β} {s s' : σ} {b : β}
    (h : (p >>= f) s = (.ok b, s')) : ∃ a s1, p s = (.ok a, s1) ∧ f a s1 = (.ok b, s') := by
  rcases hp : p s with ⟨r, s1⟩
  cases r with
  | ok a => rw [bind_ok hp] at h; exact ⟨a, s1, rfl, h⟩
  | error e => rw [bind_err hp] at h; cases h

theorem check_true {σ : Type} (e : Err) : (check true e : Prog σ Unit) = pure () := rfl
theorem check_false {σ : Type} (e : Err) : (check false e : Prog σ Unit) = fail e := rfl

theorem check_inv {σ : Type} {c : Bool} {e : Err} {s s' : σ} {u : Unit} (h : check c e s = (.ok u, s')) :
    c = true ∧ s' = s := by
  cases c with
  | true =>
    rw [check_true, pure_eq] at h
    exact ⟨rfl, (Prod.mk.inj h).2.symm⟩
  | false => rw [check_false] at h; cases h

theorem pure_bind' {σ α β : Type} (a : α) (f : α → Prog σ β) : ((pure a : Prog σ α) >>= f) = f a := rfl

theorem bind_assoc' {σ α β γ : Type} (p : Prog σ α) (f : α → Prog σ β) (g : β → Prog σ γ) :
    ((p >>= f) >>= g) = (p >>= fun a => f a >>= g) := by
  funext s
  rcases hp : p s with ⟨r, s1⟩
  cases r with
  | ok a => rw [bind_ok hp]; exact (by
      rcases hf : f a s1 with ⟨r2, s2⟩
      cases r2 with
      | ok b => rw [bind_ok (a := b) (s' := s2) (by rw [bind_ok hp, hf]), bind_ok hf]
      | error e => rw [bind_err (e := e) (s' := s2) (by rw [bind_ok hp, hf]), bind_err hf])
  | error e => rw [bind_err hp, bind_err (bind_err hp)]

end Prog

/-- A program that writes into a cell builder. -/
abbrev Wr (ρ α : Type) := Prog (CellB ρ) α
/-- A program that reads from a cell slice. -/
abbrev Rd (ρ α : Type) := Prog (CSlice ρ) α

/-- An encoding: bits and references. -/
abbrev Enc (ρ : Type) := Bits × List ρ

namespace Enc
/-- One encoding after another. -/
def append {ρ : Type} (a b : Enc ρ) : Enc ρ := (a.1 ++ b.1, a.2 ++ b.2)
instance {ρ : Type} : Append (Enc ρ) := ⟨append⟩
@[simp] theorem append_fst {ρ : Type} (a b : Enc ρ) : (a ++ b : Enc ρ).1 = a.1 ++ b.1 := rfl
@[simp] theorem append_snd {ρ : Type} (a b : Enc ρ) : (a ++ b : Enc ρ).2 = a.2 ++ b.2 := rfl
theorem append_assoc {ρ : Type} (a b c : Enc ρ) : (a ++ b ++ c : Enc ρ) = a ++ (b ++ c) :=
  Prod.ext (List.append_assoc ..) (List.append_assoc ..)
/-- Nothing. -/
def nil {ρ : Type} : Enc ρ := ([], [])
@[simp] theorem nil_append {ρ : Type} (a : Enc ρ) : (nil ++ a : Enc ρ) = a := rfl
@[simp] theorem append_nil {ρ : Type} (a : Enc ρ) : (a ++ nil : Enc ρ) = a :=
  Prod.ext (List.append_nil _) (List.append_nil _)
/-- Data only. -/
def bits {ρ : Type} (l : Bits) : Enc ρ := (l, [])
/-- One reference. -/
def ref {ρ : Type} (c : ρ) : Enc ρ := ([], [c])
/-- The encoding fits into one cell. -/
def Fits {ρ : Type} (e : Enc ρ) : Prop := e.1.length ≤ 1023 ∧ e.2.length ≤ 4
instance {ρ : Type} (e : Enc ρ) : Decidable e.Fits := inferInstanceAs (Decidable (_ ∧ _))
theorem bits_append {ρ : Type} (a b : Bits) : (bits a ++ bits b : Enc ρ) = bits (a ++ b) := rfl
end Enc

/-- The contents of a builder. -/
def CellB.contents {ρ : Type} (b : CellB ρ) : Enc ρ := (b.inner.bits, b.refs)
/-- The contents of the window of a slice. -/
def CSlice.contents {ρ : Type} (s : CSlice ρ) : Enc ρ := (s.bits, s.refList)

/-- The program `w` writes exactly `e`: on every builder with room for it the result is the old
contents followed by `e`; on every other builder it fails with `CellOverflow`. -/
def Writes {ρ : Type} (w : Wr ρ Unit) (e : Enc ρ) : Prop :=
  ∀ b : CellB ρ, b.WF →
    ((b.contents ++ e : Enc ρ).Fits → ∃ b', w b = (.ok (), b') ∧ b'.WF ∧ b'.contents = b.contents ++ e ∧ b'.exotic = b.exotic) ∧
    (¬ (b.contents ++ e : Enc ρ).Fits → ∃ b', w b = (.error .cellOverflow, b') ∧ b'.WF)

/-- The program `w` writes exactly `e`, and a failure leaves the builder unchanged. -/
def WritesAtomic {ρ : Type} (w : Wr ρ Unit) (e : Enc ρ) : Prop :=
  Writes w e ∧ ∀ b : CellB ρ, b.WF → ¬ (b.contents ++ e : Enc ρ).Fits → w b = (.error .cellOverflow, b)

/-- The program `p` reads `v` from the encoding `e`, whatever follows, and stops right behind it. -/
def Reads {ρ α : Type} (p : Rd ρ α) (e : Enc ρ) (v : α) : Prop :=
  ∀ (s : CSlice ρ) (rest : Enc ρ), s.WF → s.contents = e ++ rest →
    ∃ s', p s = (.ok v, s') ∧ s'.WF ∧ s'.contents = rest ∧ s'.data = s.data ∧ s'.refs = s.refs

/-- The program `p` accepts only encodings that satisfy `R`: whenever it returns `v`, the window began
with some `e` with `R v e`, and the window now begins right behind it. -/
def Exact {ρ α : Type} (p : Rd ρ α) (R : α → Enc ρ → Prop) : Prop :=
  ∀ (s s' : CSlice ρ) (v : α), s.WF → p s = (.ok v, s') →
    ∃ e, R v e ∧ s.contents = e ++ s'.contents ∧ s'.WF

/-- The program `p` never faults or panics, keeps the window inside the cell and only shrinks it. -/
def Safe {ρ α : Type} (p : Rd ρ α) : Prop :=
  ∀ s : CSlice ρ, s.WF → (p s).2.WF ∧ (∃ e, s.contents = e ++ (p s).2.contents) ∧
    (p s).1 ≠ .error .fault ∧ (p s).1 ≠ .error .panic

/-! ### Composition -/

theorem fits_left {ρ : Type} {a b : Enc ρ} (h : (a ++ b : Enc ρ).Fits) : a.Fits := by
  unfold Enc.Fits at *
  simp only [Enc.append_fst, Enc.append_snd, List.length_append] at h
  omega

theorem CellB.WF.contents_fits {ρ : Type} {b : CellB ρ} (hb : b.WF) : b.contents.Fits := by
  refine ⟨?_, hb.refs⟩
  show b.inner.bits.length ≤ 1023
  rw [DataBuilder.bits_length]
  exact hb.inner.le

theorem Writes.pure {ρ : Type} : Writes (pure () : Wr ρ Unit) Enc.nil := by
  intro b hb
  refine ⟨fun _ => ⟨b, rfl, hb, by simp, rfl⟩, fun h => absurd (by simpa using hb.contents_fits) h⟩

theorem Writes.bind {ρ : Type} {w1 w2 : Wr ρ Unit} {e1 e2 : Enc ρ} (h1 : Writes w1 e1) (h2 : Writes w2 e2) :
    Writes (w1 >>= fun _ => w2) (e1 ++ e2) := by
  intro b hb
  rw [← Enc.append_assoc]
  constructor
  · intro hf
    obtain ⟨b1, r1, wf1, c1, x1⟩ := (h1 b hb).1 (fits_left hf)
    obtain ⟨b2, r2, wf2, c2, x2⟩ := (h2 b1 wf1).1 (by rw [c1]; exact hf)
    exact ⟨b2, by rw [Prog.bind_ok r1, r2], wf2, by rw [c2, c1], by rw [x2, x1]⟩
  · intro hf
    by_cases hf1 : (b.contents ++ e1 : Enc ρ).Fits
    · obtain ⟨b1, r1, wf1, c1, x1⟩ := (h1 b hb).1 hf1
      obtain ⟨b2, r2, wf2⟩ := (h2 b1 wf1).2 (by rw [c1]; exact hf)
      exact ⟨b2, by rw [Prog.bind_ok r1, r2], wf2⟩
    · obtain ⟨b1, r1, wf1⟩ := (h1 b hb).2 hf1
      exact ⟨b1, by rw [Prog.bind_err r1], wf1⟩

theorem Writes.seq {ρ : Type} {w1 : Wr ρ Unit} {f : Unit → Wr ρ Unit} {e1 e2 : Enc ρ} (h1 : Writes w1 e1) (h2 : Writes (f ()) e2) :
    Writes (w1 >>= f) (e1 ++ e2) := Writes.bind h1 h2

theorem Writes.cast {ρ : Type} {w : Wr ρ Unit} {e e' : Enc ρ} (h : Writes w e) (he : e = e') : Writes w e' := he ▸ h

theorem Reads.pure {ρ α : Type} (v : α) : Reads (pure v : Rd ρ α) Enc.nil v := by
  intro s rest hs hc
  exact ⟨s, rfl, hs, hc, rfl, rfl⟩

theorem Reads.bind {ρ α β : Type} {p : Rd ρ α} {f : α → Rd ρ β} {e1 e2 : Enc ρ} {v : α} {w : β}
    (h1 : Reads p e1 v) (h2 : Reads (f v) e2 w) : Reads (p >>= f) (e1 ++ e2) w := by
  intro s rest hs hc
  rw [Enc.append_assoc] at hc
  obtain ⟨s1, r1, wf1, c1, d1, f1⟩ := h1 s _ hs hc
  obtain ⟨s2, r2, wf2, c2, d2, f2⟩ := h2 s1 _ wf1 c1
  exact ⟨s2, by rw [Prog.bind_ok r1, r2], wf2, c2, by rw [d2, d1], by rw [f2, f1]⟩

theorem Reads.cast {ρ α : Type} {p : Rd ρ α} {e e' : Enc ρ} {v : α} (h : Reads p e v) (he : e = e') : Reads p e' v := he ▸ h

theorem Reads.check {ρ : Type} {c : Bool} {x : Err} (h : c = true) : Reads (Prog.check c x : Rd ρ Unit) Enc.nil () := by
  rw [h]; exact Reads.pure ()

theorem Exact.pure {ρ α : Type} (v : α) {R : α → Enc ρ → Prop} (h : R v Enc.nil) : Exact (pure v : Rd ρ α) R := by
  intro s s' w hs hp
  rw [Prog.pure_eq] at hp
  obtain ⟨e1, e2⟩ := Prod.mk.inj hp
  injection e1 with e1
  subst e1; subst e2
  exact ⟨Enc.nil, h, by simp, hs⟩

theorem Exact.fail {ρ α : Type} (x : Err) {R : α → Enc ρ → Prop} : Exact (Prog.fail x : Rd ρ α) R := by
  intro s s' w hs hp
  cases hp

theorem Exact.bind {ρ α β : Type} {p : Rd ρ α} {f : α → Rd ρ β} {R1 : α → Enc ρ → Prop} {R2 : β → Enc ρ → Prop}
    {R3 : α → β → Enc ρ → Prop}
    (h1 : Exact p R1) (h2 : ∀ a, Exact (f a) (R3 a))
    (h : ∀ a b e1 e2, R1 a e1 → R3 a b e2 → R2 b (e1 ++ e2)) : Exact (p >>= f) R2 := by
  intro s s' w hs hp
  obtain ⟨a, s1, r1, r2⟩ := Prog.bind_inv hp
  obtain ⟨e1, p1, c1, wf1⟩ := h1 s s1 a hs r1
  obtain ⟨e2, p2, c2, wf2⟩ := h2 a s1 s' w wf1 r2
  exact ⟨e1 ++ e2, h a w e1 e2 p1 p2, by rw [c1, c2, Enc.append_assoc], wf2⟩

theorem Exact.weaken {ρ α : Type} {p : Rd ρ α} {R R' : α → Enc ρ → Prop} (h : Exact p R) (hr : ∀ v e, R v e → R' v e) :
    Exact p R' := by
  intro s s' v hs hp
  obtain ⟨e, he, c⟩ := h s s' v hs hp
  exact ⟨e, hr v e he, c⟩

theorem Exact.check {ρ : Type} (c : Bool) (x : Err) :
    Exact (Prog.check c x : Rd ρ Unit) (fun _ e => c = true ∧ e = Enc.nil) := by
  intro s s' v hs hp
  obtain ⟨h1, h2⟩ := Prog.check_inv hp
  subst h2
  exact ⟨Enc.nil, ⟨h1, rfl⟩, by simp, hs⟩

theorem Safe.pure {ρ α : Type} (v : α) : Safe (pure v : Rd ρ α) := by
  intro s hs
  exact ⟨hs, ⟨Enc.nil, by simp [Prog.pure_eq]⟩, by simp [Prog.pure_eq], by simp [Prog.pure_eq]⟩

theorem Safe.fail {ρ α : Type} {x : Err} (h1 : x ≠ .fault) (h2 : x ≠ .panic) : Safe (Prog.fail x : Rd ρ α) := by
  intro s hs
  exact ⟨hs, ⟨Enc.nil, by simp [Prog.fail]⟩, by simpa [Prog.fail] using h1, by simpa [Prog.fail] using h2⟩

theorem Safe.check {ρ : Type} (c : Bool) {x : Err} (h1 : x ≠ .fault) (h2 : x ≠ .panic) : Safe (Prog.check c x : Rd ρ Unit) := by
  cases c
  · exact Safe.fail h1 h2
  · exact Safe.pure ()

theorem Safe.bind {ρ α β : Type} {p : Rd ρ α} {f : α → Rd ρ β} (h1 : Safe p) (h2 : ∀ a, Safe (f a)) : Safe (p >>= f) := by
  intro s hs
  obtain ⟨wf1, ⟨e1, c1⟩, n1, n2⟩ := h1 s hs
  rcases hp : p s with ⟨r, s1⟩
  rw [hp] at wf1 c1 n1 n2
  cases r with
  | ok a =>
    rw [Prog.bind_ok hp]
    obtain ⟨wf2, ⟨e2, c2⟩, m1, m2⟩ := h2 a s1 wf1
    exact ⟨wf2, ⟨e1 ++ e2, by rw [c1, c2, Enc.append_assoc]⟩, m1, m2⟩
  | error e =>
    rw [Prog.bind_err hp]
    exact ⟨wf1, ⟨e1, c1⟩, fun h => n1 (by injection h with h; rw [h]), fun h => n2 (by injection h with h; rw [h])⟩

/-! ### What was written can be read back -/

/-- Sequencing where the second step is only known on results of the first. -/
theorem Exact.bindx {ρ α β : Type} {p : Rd ρ α} {f : α → Rd ρ β} {R1 : α → Enc ρ → Prop} {R2 : β → Enc ρ → Prop}
    {R3 : α → β → Enc ρ → Prop}
    (h1 : Exact p R1) (h2 : ∀ a e, R1 a e → Exact (f a) (R3 a))
    (h : ∀ a b e1 e2, R1 a e1 → R3 a b e2 → R2 b (e1 ++ e2)) : Exact (p >>= f) R2 := by
  intro s s' w hs hp
  obtain ⟨a, s1, r1, r2⟩ := Prog.bind_inv hp
  obtain ⟨e1, p1, c1, wf1⟩ := h1 s s1 a hs r1
  obtain ⟨e2, p2, c2, wf2⟩ := h2 a e1 p1 s1 s' w wf1 r2
  exact ⟨e1 ++ e2, h a w e1 e2 p1 p2, by rw [c1, c2, Enc.append_assoc], wf2⟩

theorem Safe.bindx {ρ α β : Type} {p : Rd ρ α} {f : α → Rd ρ β} {R : α → Enc ρ → Prop} (h1 : Safe p) (hx : Exact p R)
    (h2 : ∀ a e, R a e → Safe (f a)) : Safe (p >>= f) := by
  intro s hs
  obtain ⟨wf1, ⟨e1, c1⟩, n1, n2⟩ := h1 s hs
  rcases hp : p s with ⟨r, s1⟩
  rw [hp] at wf1 c1 n1 n2
  cases r with
  | ok a =>
    rw [Prog.bind_ok hp]
    obtain ⟨e0, hr, _, _⟩ := hx s s1 a hs hp
    obtain ⟨wf2, ⟨e2, c2⟩, m1, m2⟩ := h2 a e0 hr s1 wf1
    exact ⟨wf2, ⟨e1 ++ e2, by rw [c1, c2, Enc.append_assoc]⟩, m1, m2⟩
  | error e =>
    rw [Prog.bind_err hp]
    exact ⟨wf1, ⟨e1, c1⟩, fun h => n1 (by injection h with h; rw [h]), fun h => n2 (by injection h with h; rw [h])⟩

/-- A value written by `w` into a fresh builder (or behind other data) and read from a slice over the
result. -/
theorem Reads.after_write {ρ α : Type} {w : Wr ρ Unit} {p : Rd ρ α} {e : Enc ρ} {v : α}
    (hw : Writes w e) (hr : Reads p e v) {b : CellB ρ} (hn : w CellB.new = (.ok (), b)) :
    ∃ s', p b.asSlice = (.ok v, s') ∧ s'.contents = Enc.nil := by
  have wfn : (CellB.new : CellB ρ).WF := CellB.wf_new
  have hc0 : (CellB.new : CellB ρ).contents = Enc.nil := by
    show ((CellB.new : CellB ρ).inner.bits, _) = _
    rfl
  by_cases hf : ((CellB.new : CellB ρ).contents ++ e : Enc ρ).Fits
  · obtain ⟨b', r, wf, c, _⟩ := (hw _ wfn).1 hf
    rw [r] at hn
    obtain ⟨_, e2⟩ := Prod.mk.inj hn
    subst e2
    obtain ⟨a1, a2, a3⟩ := CellB.asSlice_spec wf
    obtain ⟨s', q, _, c', _⟩ := hr b'.asSlice Enc.nil a1 (by
      rw [Enc.append_nil]
      show (b'.asSlice.bits, b'.asSlice.refList) = e
      rw [a2, a3]
      rw [hc0, Enc.nil_append] at c
      exact c)
    exact ⟨s', q, c'⟩
  · obtain ⟨b', r, _⟩ := (hw _ wfn).2 hf
    rw [r] at hn; cases hn

end Verif
