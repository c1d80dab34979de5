import Verif.Account
/-
More combinators for TL-B schemes: tags, checks, alternatives, cells that are built first.
-/
set_option linter.unusedVariables false
set_option linter.unusedSimpArgs false
namespace Verif

namespace Tlb
variable {α β : Type}

/-! ### Model: what the derive macros generate -/

/-- The call that stores a tag of `n` bits (`proc/src/derive_store.rs:115-144` `store_tag`). -/
def tagWr (n t : Nat) : Wr Cell Unit :=
  match n with
  | 1 => Wr.bit (decide (t ≠ 0))
  | 8 => Wr.u8 t
  | 16 => Wr.u16 t
  | 32 => Wr.u32 t
  | n => Wr.small t n

/-- The call that loads a tag of `n` bits (`proc/src/derive_load.rs:192-222` `load_tag_op_value`). -/
def tagRd (n : Nat) : Rd Cell Nat :=
  match n with
  | 1 => Rd.bit >>= fun b => pure b.toNat
  | 8 => Rd.u8
  | 16 => Rd.u16
  | 32 => Rd.u32
  | n => Rd.small n

/-- A struct with `#[tlb(tag = ..)]` (`proc/src/derive_store.rs:98-110`, `derive_load.rs:110-142`). -/
def tagged (n t : Nat) (A : Tlb α) : Tlb α where
  ok := A.ok
  store v := tagWr n t >>= fun _ => A.store v
  load := tagRd n >>= fun u => Prog.check (decide (u = t)) .invalidTag >>= fun _ => A.load
  R v := Enc.Lit (natBits n t) ⬝ A.R v
  enc v := Enc.bits (natBits n t) ++ A.enc v

/-- A struct with `#[tlb(validate_with = ..)]` (`proc/src/derive_store.rs:99-110`, `derive_load.rs:114-129`). -/
def validated (c : α → Bool) (A : Tlb α) : Tlb α where
  ok v := A.ok v ∧ c v = true
  store v := Prog.check (c v) .invalidData >>= fun _ => A.store v
  load := A.load >>= fun v => Prog.check (c v) .invalidData >>= fun _ => pure v
  R v e := A.R v e ∧ c v = true
  enc := A.enc

/-- `builder.build_ext(context)` of a builder filled by `w`, as a step of a larger store. -/
def built (acc : Cell → Bool) (w : Wr Cell Unit) : Wr Cell Cell := fun b =>
  match w.toSl >>= buildSl acc with
  | .error e => (.error e, b)
  | .ok c => (.ok c, b)

/-- `cell.parse::<T>()` (`cell/mod.rs:351-353`): an ordinary cell that begins with the value. Cells beyond the limits of C10 do not exist; the
model refuses them. -/
def parseAs (l : Rd Cell α) (c : Cell) : Except Err α :=
  if c.exotic then .error .unexpectedExoticCell
  else if c.bits.length ≤ 1023 ∧ c.refs.length ≤ 4 then (l (Sl.reader ⟨c.bits, c.refs⟩)).1
  else .error .cellUnderflow

/-- `cell.parse::<T>()` of a loaded cell, as a step of a larger load. -/
def parse (l : Rd Cell α) (c : Cell) : Rd Cell α := fun s => (parseAs l c, s)

/-- As `built`, for an optional cell. -/
def builtOpt (acc : Cell → Bool) (w : α → Wr Cell Unit) : Option α → Wr Cell (Option Cell)
  | none => pure none
  | some v => built acc (w v) >>= fun c => pure (some c)

/-- As `parse`, for an optional cell. -/
def parseOpt (l : Rd Cell α) : Option Cell → Rd Cell (Option α)
  | none => pure none
  | some c => parse l c >>= fun v => pure (some v)

/-- Two flags stored by `store_small_uint(.., 2)`. -/
def bits2 : Tlb (Bool × Bool) where
  ok _ := True
  store a := Wr.small (a.1.toNat <<< 1 ||| a.2.toNat) 2
  load := Rd.small 2 >>= fun v => pure (decide (v &&& 2 ≠ 0), decide (v &&& 1 ≠ 0))
  R a := Enc.Lit [a.1, a.2]
  enc a := Enc.bits [a.1, a.2]

/-- Three flags stored by `store_small_uint(.., 3)`. -/
def bits3 : Tlb (Bool × Bool × Bool) where
  ok _ := True
  store a := Wr.small (a.1.toNat <<< 2 ||| a.2.1.toNat <<< 1 ||| a.2.2.toNat) 3
  load := Rd.small 3 >>= fun v => pure (decide (v &&& 4 ≠ 0), decide (v &&& 2 ≠ 0), decide (v &&& 1 ≠ 0))
  R a := Enc.Lit [a.1, a.2.1, a.2.2]
  enc a := Enc.bits [a.1, a.2.1, a.2.2]

/-- `Uint9`, `Uint12`, `Uint15` (`num/mod.rs:845-883`). -/
def uint (n : Nat) : Tlb Nat := canonical (fun v => v ≤ smallMax n) (smallStore n) (smallLoad n) (fun v => Enc.bits (natBits n v))

/-! ### Lemmas -/

theorem bits2_sound : bits2.Sound :=
  (coded_sound (n := 2) (f := fun v => (decide (v &&& 2 ≠ 0), decide (v &&& 1 ≠ 0))) (g := fun a : Bool × Bool => a.1.toNat <<< 1 ||| a.2.toNat)
    (by decide) (by rintro ⟨a, b⟩; cases a <;> cases b <;> decide) (by rintro ⟨a, b⟩; cases a <;> cases b <;> decide)
    (by decide)).eq rfl (by intro _ _; trivial) (by intro a _; rfl)
    (by rintro ⟨a, b⟩ e; cases a <;> cases b <;> exact Iff.rfl) (by rintro ⟨a, b⟩ _; cases a <;> cases b <;> rfl)

theorem bits3_sound : bits3.Sound :=
  (coded_sound (n := 3) (f := fun v => (decide (v &&& 4 ≠ 0), decide (v &&& 2 ≠ 0), decide (v &&& 1 ≠ 0)))
    (g := fun a : Bool × Bool × Bool => a.1.toNat <<< 2 ||| a.2.1.toNat <<< 1 ||| a.2.2.toNat)
    (by decide) (by rintro ⟨a, b, c⟩; cases a <;> cases b <;> cases c <;> decide) (by rintro ⟨a, b, c⟩; cases a <;> cases b <;> cases c <;> decide)
    (by decide)).eq rfl (by intro _ _; trivial) (by intro a _; rfl)
    (by rintro ⟨a, b, c⟩ e; cases a <;> cases b <;> cases c <;> exact Iff.rfl) (by rintro ⟨a, b, c⟩ _; cases a <;> cases b <;> cases c <;> rfl)

theorem uint_sound {n : Nat} (hn : n = 9 ∨ n = 12 ∨ n = 15) : (uint n).Sound := by
  have h := C44_small (ρ := Cell) hn
  exact sound_ofCodes (Codes.ofCanon (fun v hv => (h.1 v hv).1.writes) (fun v hv => (h.1 v hv).2) h.2.2.1 h.2.2.2)

/-- The widths of tags that are supported here. -/
def TagWidth (n : Nat) : Prop := n = 1 ∨ (2 ≤ n ∧ n ≤ 8) ∨ n = 16 ∨ n = 32

theorem tagWr_writes {n t : Nat} (hn : TagWidth n) (ht : t < 2 ^ n) : WritesAtomic (tagWr n t) (Enc.bits (natBits n t)) := by
  rcases hn with rfl | ⟨h1, h2⟩ | rfl | rfl
  · match t, ht with
    | 0, _ => exact Wr.writes_bit false
    | 1, _ => exact Wr.writes_bit true
  · have : n = 8 ∨ n ≤ 7 := by omega
    rcases this with rfl | h3
    · exact Wr.writes_u8 ht
    · have e : tagWr n t = Wr.small t n := by
        unfold tagWr; split <;> first | omega | rfl
      rw [e]; exact Wr.writes_small t h2
  · exact Wr.writes_u16 ht
  · exact Wr.writes_u32 ht

theorem tagRd_loads {n : Nat} (hn : TagWidth n) : Loads (tagRd n) (fun t e => t < 2 ^ n ∧ e = Enc.bits (natBits n t)) := by
  rcases hn with rfl | ⟨h1, h2⟩ | rfl | rfl
  · refine (Loads.bit.map Bool.toNat).iff fun t e => ?_
    constructor
    · rintro ⟨b, rfl, rfl⟩; cases b <;> exact ⟨by decide, rfl⟩
    · rintro ⟨h, rfl⟩
      match t, h with
      | 0, _ => exact ⟨false, rfl, rfl⟩
      | 1, _ => exact ⟨true, rfl, rfl⟩
  · have : n = 8 ∨ n ≤ 7 := by omega
    rcases this with rfl | h3
    · exact Loads.ofTakes Rd.takes_u8
    · have e : tagRd n = Rd.small n := by
        unfold tagRd; split <;> first | omega | rfl
      rw [e]; exact Loads.ofTakes (Rd.takes_small h2)
  · exact Loads.ofTakes Rd.takes_u16
  · exact Loads.ofTakes Rd.takes_u32

theorem Sound.tagged {A : Tlb α} (h : A.Sound) {n t : Nat} (hn : TagWidth n) (ht : t < 2 ^ n) : (A.tagged n t).Sound :=
  ⟨⟨fun v hv => (tagWr_writes hn ht).writes.seq (h.st.writes v hv), fun v hv => ⟨_, _, rfl, h.st.canon v hv, rfl⟩⟩,
    ((tagRd_loads hn).bind (R := fun u v e => u = t ∧ A.R v e) (fun u _ _ => by
      by_cases hu : u = t
      · rw [decide_eq_true hu]; exact h.ld.iff fun v e => ⟨fun h => ⟨hu, h⟩, fun h => h.2⟩
      · rw [decide_eq_false hu]
        exact (Loads.fail (by decide) (by decide)).iff fun v e => ⟨fun h => h.elim, fun h => hu h.1⟩)).iff fun v e =>
      ⟨by rintro ⟨u, e1, e2, ⟨_, rfl⟩, ⟨rfl, h2⟩, rfl⟩; exact ⟨_, e2, rfl, h2, rfl⟩,
       by rintro ⟨_, e2, rfl, h2, rfl⟩; exact ⟨t, _, e2, ⟨ht, rfl⟩, ⟨rfl, h2⟩, rfl⟩⟩⟩

theorem Sound.validated {A : Tlb α} (h : A.Sound) (c : α → Bool) : (A.validated c).Sound :=
  ⟨⟨fun v hv => by
      show Writes (Prog.check (c v) .invalidData >>= fun _ => A.store v) _
      rw [hv.2, Prog.check_true, Prog.pure_bind']
      exact h.st.writes v hv.1, fun v hv => ⟨h.st.canon v hv.1, hv.2⟩⟩,
    h.ld.check c (by decide) (by decide)⟩

/-- A struct, from the tuple of its fields. -/
theorem Sound.struct {T : Tlb α} {T' : Tlb β} (h : T.Sound) (f : α → β) (g : β → α) (hfg : ∀ b, f (g b) = b) (hgf : ∀ a, g (f a) = a)
    (hl : T'.load = T.load >>= fun a => Pure.pure (f a)) (ho : ∀ v, T'.ok v → T.ok (g v)) (hs : ∀ v, T'.ok v → T'.store v = T.store (g v))
    (hr : ∀ v e, T.R (g v) e ↔ T'.R v e) (he : ∀ v, T'.ok v → T'.enc v = T.enc (g v)) : T'.Sound :=
  (h.record hfg hgf).eq hl ho hs hr he

/-- An enum whose values begin with a tag of fixed width. -/
theorem _root_.Verif.Loads.switch {p : Rd Cell Nat} {n : Nat} (hp : Loads p (fun t e => t < 2 ^ n ∧ e = Enc.bits (natBits n t)))
    {k : Nat → Rd Cell α} (tagOf : α → Nat)
    (rest : α → Enc Cell → Prop) (ht : ∀ v, tagOf v < 2 ^ n) (h : ∀ t, t < 2 ^ n → Loads (k t) (fun v e => tagOf v = t ∧ rest v e)) :
    Loads (p >>= k) (fun v => Enc.Lit (natBits n (tagOf v)) ⬝ rest v) :=
  (hp.bind (R := fun t v e => tagOf v = t ∧ rest v e) (fun t e h' => h t h'.1)).iff fun v e =>
    ⟨by rintro ⟨t, e1, e2, ⟨_, rfl⟩, ⟨rfl, h2⟩, rfl⟩; exact ⟨_, e2, rfl, h2, rfl⟩,
     by rintro ⟨_, e2, rfl, h2, rfl⟩; exact ⟨tagOf v, _, e2, ⟨ht v, rfl⟩, ⟨rfl, h2⟩, rfl⟩⟩

/-- No value has this tag. -/
theorem _root_.Verif.Loads.nothing {x : Err} {R : α → Enc Cell → Prop} (h1 : x ≠ .fault) (h2 : x ≠ .panic) (h : ∀ v e, ¬ R v e) :
    Loads (Prog.fail x : Rd Cell α) R := (Loads.fail h1 h2).iff fun v e => ⟨fun h => h.elim, fun h' => h v e h'⟩

theorem built_run {acc : Cell → Bool} {w : Wr Cell Unit} {e : Enc Cell} (hw : Writes w e) (hf : e.Fits) (ha : acc (cellOf e) = true)
    (k : Cell → Wr Cell Unit) : (built acc w >>= k) = k (cellOf e) := by
  funext b
  have h : w.toSl >>= buildSl acc = .ok (cellOf e) := by
    rw [Wr.toSl_ok hw hf]
    show buildSl acc _ = _
    unfold buildSl
    exact if_pos ha
  have : built acc w b = (.ok (cellOf e), b) := by unfold built; rw [h]
  rw [Prog.bind_ok this]

theorem Sound.built {A : Tlb α} (h : A.Sound) {acc : Cell → Bool} {v : α} (hv : (A.child acc).ok v) (k : Cell → Wr Cell Unit) :
    (Tlb.built acc (A.store v) >>= k) = k (cellOf (A.enc v)) := built_run (h.st.writes v hv.1) hv.2.1 hv.2.2 k

/-- A reference to a cell that begins with the value; the cell is loaded, then parsed. -/
theorem Sound.parsed {A : Tlb α} (h : A.Sound) (acc : Cell → Bool) : Loads (Rd.ref >>= parse A.load) (A.child acc).R :=
  (cell_sound.ld.bind (R := fun c v e => CellStarts (A.R v) c ∧ e = Enc.nil) (fun c _ _ => by
    by_cases hx : c.exotic = true
    · have e : parse A.load c = Prog.fail .unexpectedExoticCell := by funext s; unfold parse parseAs; rw [if_pos hx]; rfl
      rw [e]
      exact Loads.nothing (by decide) (by decide) fun v e h => by rw [h.1.1] at hx; cases hx
    · have hx' : c.exotic = false := by simpa using hx
      by_cases hf : c.bits.length ≤ 1023 ∧ c.refs.length ≤ 4
      · have e : parse A.load c = fun s => ((A.load (Sl.reader ⟨c.bits, c.refs⟩)).1, s) := by
          funext s; unfold parse parseAs; rw [if_neg hx, if_pos hf]
        rw [e]
        obtain ⟨w, ct⟩ := reader_contents hf
        refine ⟨?_, ?_, ?_⟩
        · rintro v e ⟨⟨_, _, e1, rest, hr, hc⟩, rfl⟩ s rest' hs hs'
          obtain ⟨s', q, _⟩ := h.ld.reads v e1 hr _ rest w (by rw [ct, hc])
          exact ⟨s, by rw [q], hs, by rw [hs', Enc.nil_append], rfl, rfl⟩
        · intro s s' v hs hp
          obtain ⟨h1, rfl⟩ := Prod.mk.inj hp
          obtain ⟨e, hr, hc, _⟩ := h.ld.exact _ (A.load (Sl.reader ⟨c.bits, c.refs⟩)).2 v w (Prod.ext h1 rfl)
          exact ⟨Enc.nil, ⟨⟨hx', hf, e, _, hr, by rw [← ct, hc]⟩, rfl⟩, by simp, hs⟩
        · intro s hs
          obtain ⟨_, _, n1, n2⟩ := h.ld.safe _ w
          exact ⟨hs, ⟨Enc.nil, by simp⟩, n1, n2⟩
      · have e : parse A.load c = Prog.fail .cellUnderflow := by funext s; unfold parse parseAs; rw [if_neg hx, if_neg hf]; rfl
        rw [e]
        exact Loads.nothing (by decide) (by decide) fun v e h => hf h.1.2.1)).iff fun v e =>
    ⟨by rintro ⟨c, e1, e2, ⟨_, rfl⟩, ⟨h2, rfl⟩, rfl⟩; exact ⟨c, Enc.append_nil _, h2⟩,
     by rintro ⟨c, rfl, h⟩; exact ⟨c, _, _, ⟨trivial, rfl⟩, ⟨h, rfl⟩, (Enc.append_nil _).symm⟩⟩

theorem Sound.builtOpt {A : Tlb α} (h : A.Sound) {acc : Cell → Bool} {v : Option α} (hv : (A.child acc).opt.ok v) (k : Option Cell → Wr Cell Unit) :
    (Tlb.builtOpt acc A.store v >>= k) = k (v.map fun a => cellOf (A.enc a)) := by
  cases v with
  | none => rfl
  | some a =>
    show ((Tlb.built acc (A.store a) >>= fun c => Pure.pure (some c)) >>= k) = _
    rw [Prog.bind_assoc']
    exact h.built hv _

theorem Sound.parsedOpt {A : Tlb α} (h : A.Sound) (acc : Cell → Bool) : Loads (cell.opt.load >>= parseOpt A.load) (A.child acc).opt.R := by
  have e : (cell.opt.load >>= parseOpt A.load) = Rd.bit >>= optRest (Rd.ref >>= parse A.load) := by
    show ((Rd.bit >>= optRest Rd.ref) >>= parseOpt A.load) = _
    rw [Prog.bind_assoc']
    congr 1
    funext b
    cases b with
    | false => rfl
    | true =>
      show ((Rd.ref >>= fun c => Pure.pure (some c)) >>= parseOpt A.load) = ((Rd.ref >>= parse A.load) >>= fun v => Pure.pure (some v))
      rw [Prog.bind_assoc', Prog.bind_assoc']
      rfl
  rw [e]
  have hs : (Tlb.mk (A.child acc).ok (A.child acc).store (Rd.ref >>= parse A.load) (A.child acc).R (A.child acc).enc).Sound := ⟨(h.child acc).st, h.parsed acc⟩
  exact hs.opt.ld

/-- Bits and references are kept apart: a part without bits and a part without references may change places. -/
theorem _root_.Verif.Enc.then_comm {P Q : Enc Cell → Prop} (hp : ∀ e, P e → e.2 = []) (hq : ∀ e, Q e → e.1 = []) {e : Enc Cell} : (P ⬝ Q) e ↔ (Q ⬝ P) e := by
  constructor
  · rintro ⟨⟨a, b⟩, ⟨c, d⟩, h1, h2, rfl⟩
    obtain rfl := hp _ h1
    obtain rfl := hq _ h2
    exact ⟨_, _, h2, h1, by show (_, _) = (_, _); simp⟩
  · rintro ⟨⟨a, b⟩, ⟨c, d⟩, h1, h2, rfl⟩
    obtain rfl := hp _ h2
    obtain rfl := hq _ h1
    exact ⟨_, _, h2, h1, by show (_, _) = (_, _); simp⟩

theorem _root_.Verif.Enc.then_and {P Q : Enc Cell → Prop} {a : Prop} {e : Enc Cell} : (P ⬝ fun e => a ∧ Q e) e ↔ a ∧ (P ⬝ Q) e :=
  ⟨fun ⟨x, y, h1, ⟨h2, h3⟩, h4⟩ => ⟨h2, x, y, h1, h3, h4⟩, fun ⟨h2, x, y, h1, h3, h4⟩ => ⟨x, y, h1, ⟨h2, h3⟩, h4⟩⟩
theorem _root_.Verif.Enc.then_or {P Q S : Enc Cell → Prop} {e : Enc Cell} : (P ⬝ fun e => Q e ∨ S e) e ↔ (P ⬝ Q) e ∨ (P ⬝ S) e :=
  ⟨by rintro ⟨x, y, h1, h | h, h4⟩
      · exact Or.inl ⟨x, y, h1, h, h4⟩
      · exact Or.inr ⟨x, y, h1, h, h4⟩,
   by rintro (⟨x, y, h1, h, h4⟩ | ⟨x, y, h1, h, h4⟩)
      · exact ⟨x, y, h1, Or.inl h, h4⟩
      · exact ⟨x, y, h1, Or.inr h, h4⟩⟩
theorem _root_.Verif.Enc.then_exists {ι : Type} {P : Enc Cell → Prop} {Q : ι → Enc Cell → Prop} {e : Enc Cell} :
    (P ⬝ fun e => ∃ a, Q a e) e ↔ ∃ a, (P ⬝ Q a) e :=
  ⟨fun ⟨x, y, h1, ⟨a, h2⟩, h4⟩ => ⟨a, x, y, h1, h2, h4⟩, fun ⟨a, x, y, h1, h2, h4⟩ => ⟨x, y, h1, ⟨a, h2⟩, h4⟩⟩

theorem _root_.Verif.Loads.record {l : Rd Cell α} {R : α → Enc Cell → Prop} (h : Loads l R) (f : α → β) (g : β → α) (hfg : ∀ b, f (g b) = b) (hgf : ∀ a, g (f a) = a) :
    Loads (l >>= fun a => Pure.pure (f a)) (fun b => R (g b)) :=
  (h.map f).iff fun v e => ⟨by rintro ⟨a, rfl, h⟩; rw [hgf]; exact h, fun h => ⟨g v, (hfg v).symm, h⟩⟩

/-- A bit chooses between two loaders. -/
theorem _root_.Verif.Loads.alt {l0 l1 : Rd Cell α} {R0 R1 : α → Enc Cell → Prop} (h0 : Loads l0 R0) (h1 : Loads l1 R1) :
    Loads (Rd.bit >>= fun b => if b then l1 else l0) (fun v e => (Enc.Lit [false] ⬝ R0 v) e ∨ (Enc.Lit [true] ⬝ R1 v) e) :=
  Loads.onBit (k := fun b => if b then l1 else l0) h0 h1
theorem _root_.Verif.Loads.altN {l0 l1 : Rd Cell α} {R0 R1 : α → Enc Cell → Prop} (h0 : Loads l0 R0) (h1 : Loads l1 R1) :
    Loads (Rd.bit >>= fun b => if !b then l0 else l1) (fun v e => (Enc.Lit [false] ⬝ R0 v) e ∨ (Enc.Lit [true] ⬝ R1 v) e) :=
  Loads.onBit (k := fun b => if !b then l0 else l1) h0 h1

/-- An optional reference to a cell that begins with the value: the cell is built before (`builtOpt`), and parsed after it is loaded. -/
def optCell (acc : Cell → Bool) (A : Tlb α) : Tlb (Option α) where
  ok := (A.child acc).opt.ok
  store v := cell.opt.store (v.map fun a => cellOf (A.enc a))
  load := cell.opt.load >>= parseOpt A.load
  R := (A.child acc).opt.R
  enc := (A.child acc).opt.enc

theorem Sound.optCell {A : Tlb α} (h : A.Sound) (acc : Cell → Bool) : (A.optCell acc).Sound :=
  ⟨⟨fun v hv => match v with
    | none => cell_sound.opt.st.writes none trivial
    | some a => cell_sound.opt.st.writes (some (cellOf (A.enc a))) trivial, (h.child acc).opt.st.canon⟩, h.parsedOpt acc⟩

/-- A reference to a cell that begins with the value; the cell is built before (`built`). -/
def childB (acc : Cell → Bool) (A : Tlb α) : Tlb α where
  ok := (A.child acc).ok
  store v := Wr.ref (cellOf (A.enc v))
  load := childLoad A.load
  R := (A.child acc).R
  enc := (A.child acc).enc

theorem Sound.childB {A : Tlb α} (h : A.Sound) (acc : Cell → Bool) : (A.childB acc).Sound :=
  ⟨⟨fun v _ => cell_sound.st.writes _ trivial, (h.child acc).st.canon⟩, (h.child acc).ld⟩

/-- The first part is stored behind the second, but loaded before it. -/
def hoist {γ : Type} (A : Tlb α) (B : Tlb β) (C : Tlb γ) : Tlb (α × β × γ) where
  ok v := A.ok v.1 ∧ B.ok v.2.1 ∧ C.ok v.2.2
  store v := B.store v.2.1 >>= fun _ => A.store v.1 >>= fun _ => C.store v.2.2
  load := A.load >>= fun a => B.load >>= fun b => C.load >>= fun c => pure (a, b, c)
  R v := B.R v.2.1 ⬝ A.R v.1 ⬝ C.R v.2.2
  enc v := B.enc v.2.1 ++ (A.enc v.1 ++ C.enc v.2.2)

theorem Sound.hoist {γ : Type} {A : Tlb α} {B : Tlb β} {C : Tlb γ} (ha : A.Sound) (hb : B.Sound) (hc : C.Sound) (h1 : ∀ v e, A.R v e → e.1 = [])
    (h2 : ∀ v e, B.R v e → e.2 = []) : (A.hoist B C).Sound :=
  ⟨⟨fun v h => (hb.st.writes _ h.2.1).seq ((ha.st.writes _ h.1).seq (hc.st.writes _ h.2.2)),
    fun v h => ⟨_, _, hb.st.canon _ h.2.1, ⟨_, _, ha.st.canon _ h.1, hc.st.canon _ h.2.2, rfl⟩, rfl⟩⟩, by
    have e : (A.hoist B C).load = (A.pair (B.pair C)).load := by
      show (A.load >>= fun a => B.load >>= fun b => C.load >>= fun c => Pure.pure (a, b, c)) = _
      simp only [Tlb.pair, pairLoad, Prog.bind_assoc', Prog.pure_bind']
    rw [e]
    refine (ha.pair (hb.pair hc)).ld.iff fun v e => ?_
    show (A.R v.1 ⬝ B.R v.2.1 ⬝ C.R v.2.2) e ↔ (B.R v.2.1 ⬝ A.R v.1 ⬝ C.R v.2.2) e
    rw [← then_assoc, ← then_assoc]
    exact ⟨fun ⟨x, y, p, q, r⟩ => ⟨x, y, (Enc.then_comm (h2 _) (h1 _)).2 p, q, r⟩, fun ⟨x, y, p, q, r⟩ => ⟨x, y, (Enc.then_comm (h2 _) (h1 _)).1 p, q, r⟩⟩⟩

/-- The grammar of an enum, value by value. -/
macro "tlb_alt" : tactic => `(tactic| (simp [Enc.then_and, Enc.then_or, Enc.then_exists, then_nil, lit_lit, lit_end, then_false]))

/-- The equality of the loaders of a struct and of the tuple of its fields. -/
macro "tlb_more" : tactic =>
  `(tactic| (simp only [Tlb.record, Tlb.pair, Tlb.tagged, Tlb.validated, Tlb.tagRd, pairLoad, Prog.bind_assoc', Prog.pure_bind']))

end Tlb

end Verif
