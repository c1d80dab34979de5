import Verif.AbiRound
/-!
# When the serializer has room

Conditions under which a value can be written at all, and the invariant of the serializer that shows it.
-/
set_option linter.unusedVariables false
set_option linter.unusedSimpArgs false
namespace Verif
namespace Abi

/-! ### Specification -/

mutual
/-- What is stored of a value where it is written: bits and references. -/
def Val.stored : Val → Size
  | .uint n _ => ⟨n, 0⟩
  | .int n _ => ⟨n, 0⟩
  | .varuint n v => ⟨lenBits n + (signedBytesBe (v : Int)).length * 8, 0⟩
  | .varint n x => ⟨lenBits n + (signedBytesBe x).length * 8, 0⟩
  | .bool _ => ⟨1, 0⟩
  | .cell _ => ⟨0, 1⟩
  | .bytes _ => ⟨0, 1⟩
  | .fixedBytes _ => ⟨0, 1⟩
  | .string _ => ⟨0, 1⟩
  | .ref _ => ⟨0, 1⟩
  | .address a => ⟨a.bitLen, 0⟩
  | .token v => ⟨(VarKind.tokens.bitLen v).getD 124, 0⟩
  | .array _ vs => ⟨33, if vs.isEmpty then 0 else 1⟩
  | .fixedArray _ vs => ⟨1, if vs.isEmpty then 0 else 1⟩
  | .map _ _ es => ⟨1, if es.isEmpty then 0 else 1⟩
  | .absent _ => ⟨1, 0⟩
  | .present t v => if t.max.small then ⟨1, 0⟩ + v.stored else ⟨1, 1⟩
  | .tuple items => items.stored
def Items.stored : Items → Size
  | .nil => ⟨0, 0⟩
  | .cons _ v r => v.stored + r.stored
end

mutual
/-- The room that the serializer asks for. -/
def Val.asks (ver : Ver) : Val → Size
  | .uint n _ => ⟨n, 0⟩
  | .int n _ => ⟨n, 0⟩
  | .varuint n v => ⟨lenBits n + (if ver.useMax then (n - 1) * 8 else (signedBytesBe (v : Int)).length * 8), 0⟩
  | .varint n x => ⟨lenBits n + (if ver.useMax then (n - 1) * 8 else (signedBytesBe x).length * 8), 0⟩
  | .bool _ => ⟨1, 0⟩
  | .cell _ => ⟨0, 1⟩
  | .bytes _ => ⟨0, 1⟩
  | .fixedBytes _ => ⟨0, 1⟩
  | .string _ => ⟨0, 1⟩
  | .ref _ => ⟨0, 1⟩
  | .address a => ⟨if ver.useMax then 591 else a.bitLen, 0⟩
  | .token v => ⟨if ver.useMax then 124 else (VarKind.tokens.bitLen v).getD 124, 0⟩
  | .array _ vs => ⟨33, if ver.useMax then 1 else if vs.isEmpty then 0 else 1⟩
  | .fixedArray _ vs => ⟨2, if ver.useMax then 1 else if vs.isEmpty then 0 else 1⟩
  | .map _ _ _ => ⟨1, 1⟩
  | .absent t => if ver.useMax then optMax t else ⟨1, 0⟩
  | .present t v => if ver.useMax then optMax t else if t.max.small then ⟨1, 0⟩ + v.stored else ⟨1, 1⟩
  | .tuple items => items.asks ver
def Items.asks (ver : Ver) : Items → Size
  | .nil => ⟨0, 0⟩
  | .cons _ v r => v.asks ver + r.asks ver
end

/-- A value that has a serializer of its own: the size computed beforehand covers what is asked for, or all fits into one cell anyway; in version 1 it does
not matter. -/
def Snug (ver : Ver) (v : Val) : Prop :=
  ver.major = 1 ∨ ((v.asks ver).bits ≤ (v.size ver).bits ∧ (v.asks ver).refs ≤ (v.size ver).refs) ∨ ((v.asks ver).bits ≤ 1023 ∧ (v.asks ver).refs ≤ 3)

/-- A number fits into the bytes of its type, and into a cell. -/
def VarFits (n : Nat) (x : Int) : Prop := (signedBytesBe x).length ≤ n - 1 ∧ lenBits n + (signedBytesBe x).length * 8 ≤ 1023

mutual
/-- A value that can be written. -/
def Writable (ver : Ver) : Val → Prop
  | .varuint n v => VarFits n v
  | .varint n x => VarFits n x
  | .tuple items => WritableItems ver items
  | .array _ vs => WritableElems ver vs
  | .fixedArray _ vs => WritableElems ver vs
  | .map _ _ es => WritableEntries ver es
  | .present t v => Writable ver v ∧ (t.max.small = false → Snug ver v)
  | .ref v => Writable ver v ∧ Snug ver v
  | _ => True
def WritableItems (ver : Ver) : Items → Prop
  | .nil => True
  | .cons _ v r => Writable ver v ∧ WritableItems ver r
def WritableElems (ver : Ver) : Elems → Prop
  | .nil => True
  | .cons v r => Writable ver v ∧ Snug ver v ∧ WritableElems ver r
def WritableEntries (ver : Ver) : Entries → Prop
  | .nil => True
  | .cons key v r => key.bits.length = key.type.bits ∧ Writable ver v ∧ Snug ver v ∧ WritableEntries ver r
end

/-! ### The invariant -/

def stackBits (st : List (CellB Cell)) : Nat := (st.map (·.inner.bits.length)).sum
def stackRefs (st : List (CellB Cell)) : Nat := (st.map (·.refs.length)).sum

@[simp] theorem stackBits_cons (b : CellB Cell) (st : List (CellB Cell)) : stackBits (b :: st) = b.inner.bits.length + stackBits st := by simp [stackBits]
@[simp] theorem stackRefs_cons (b : CellB Cell) (st : List (CellB Cell)) : stackRefs (b :: st) = b.refs.length + stackRefs st := by simp [stackRefs]
@[simp] theorem stackBits_nil : stackBits [] = 0 := rfl
@[simp] theorem stackRefs_nil : stackRefs [] = 0 := rfl

/-- The last builder holds no more than was asked for, the others have room for a reference. -/
def StackOk (cur : Size) : List (CellB Cell) → Prop
  | [] => True
  | b :: bs => b.WF ∧ b.inner.bits.length ≤ cur.bits ∧ b.refs.length ≤ cur.refs ∧ ∀ x ∈ bs, x.WF ∧ x.refs.length ≤ 3

inductive Mode
  | one
  | covered
  | small

/-- Why there is room for what comes. -/
def ModeOk (ver : Ver) (s : Ser) (need : Size) : Mode → Prop
  | .one => ver.major = 1 ∧ s.current.refs ≤ 3
  | .covered => need.bits ≤ s.remaining.bits ∧ need.refs ≤ s.remaining.refs ∧ (s.current.refs = 4 → s.current.bits + need.bits ≤ 1023 ∧ need.refs = 0)
  | .small => s.current.bits + need.bits ≤ 1023 ∧ s.current.refs + need.refs ≤ 3 ∧ s.stack.length ≤ 1

structure Room (ver : Ver) (m : Mode) (s : Ser) (need : Size) : Prop where
  stack : StackOk s.current s.stack
  bits : s.current.bits ≤ 1023
  refs : s.current.refs ≤ 4
  mode : ModeOk ver s need m

theorem Room.weaken {ver : Ver} {m : Mode} {s : Ser} {a b : Size} (h : Room ver m s a) (h1 : b.bits ≤ a.bits) (h2 : b.refs ≤ a.refs) : Room ver m s b := by
  refine ⟨h.stack, h.bits, h.refs, ?_⟩
  have := h.mode
  cases m with
  | one => exact this
  | covered =>
    obtain ⟨x, y, z⟩ := this
    exact ⟨by omega, by omega, fun e => by have := z e; omega⟩
  | small =>
    obtain ⟨x, y, z⟩ := this
    exact ⟨by omega, by omega, z⟩

theorem room_start {ver : Ver} {v : Val} (h : Snug ver v) : ∃ m, Room ver m (Ser.start (v.size ver)) (v.asks ver) := by
  rcases h with h | h | h
  · exact ⟨.one, trivial, Nat.zero_le _, Nat.zero_le _, h, Nat.zero_le _⟩
  · exact ⟨.covered, trivial, Nat.zero_le _, Nat.zero_le _, h.1, h.2, fun e => by cases e⟩
  · exact ⟨.small, trivial, Nat.zero_le _, Nat.zero_le _, by show 0 + _ ≤ _; omega, by show 0 + _ ≤ _; omega, Nat.zero_le _⟩

theorem room_small {ver : Ver} {v : Val} (h : (v.asks ver).bits ≤ 1023 ∧ (v.asks ver).refs ≤ 3) : Room ver .small (Ser.start (v.size ver)) (v.asks ver) :=
  ⟨trivial, Nat.zero_le _, Nat.zero_le _, by show 0 + _ ≤ _; omega, by show 0 + _ ≤ _; omega, Nat.zero_le _⟩

/-- A store that the builder has room for. -/
theorem stores_in {w : Wr Cell Unit} {e : Leaf} (hw : Writes w e) {b : CellB Cell} (wf : b.WF) (h1 : b.inner.bits.length + e.1.length ≤ 1023)
    (h2 : b.refs.length + e.2.length ≤ 4) :
    ∃ b', w b = (.ok (), b') ∧ b'.WF ∧ b'.inner.bits.length = b.inner.bits.length + e.1.length ∧ b'.refs.length = b.refs.length + e.2.length := by
  have hf : (b.contents ++ e : Enc Cell).Fits := by
    unfold Enc.Fits
    rw [Enc.append_fst, Enc.append_snd, List.length_append, List.length_append]
    exact ⟨h1, h2⟩
  obtain ⟨b', r, wf', c, _⟩ := (hw b wf).1 hf
  have c1 : b'.inner.bits = b.inner.bits ++ e.1 := congrArg Prod.fst c
  have c2 : b'.refs = b.refs ++ e.2 := congrArg Prod.snd c
  exact ⟨b', r, wf', by rw [c1, List.length_append], by rw [c2, List.length_append]⟩

/-- The builders, at least one. -/
def orNew : List (CellB Cell) → List (CellB Cell)
  | [] => [CellB.new]
  | b :: bs => b :: bs

theorem require_eq (ver : Ver) (z cur rem : Size) (st : List (CellB Cell)) : Ser.require ver z ⟨cur, rem, st⟩ =
    if cur.bits > 1023 || cur.refs > 4 then .error .panic
    else if inPlace ver ⟨1023 - cur.bits, 4 - cur.refs⟩ ⟨rem.bits - z.bits, rem.refs - z.refs⟩ z then .ok ⟨cur + z, ⟨rem.bits - z.bits, rem.refs - z.refs⟩, orNew st⟩
    else .ok ⟨z, ⟨rem.bits - z.bits, rem.refs - z.refs⟩, CellB.new :: orNew st⟩ := by
  cases st <;> rfl

/-- The builders after `require_builder` and the rest of the invariant. -/
theorem require_room {ver : Ver} {m : Mode} {s : Ser} {z need : Size} (h : Room ver m s (z + need)) (hz1 : z.bits ≤ 1023) (hz2 : z.refs ≤ 3) :
    ∃ b bs cur, s.require ver z = .ok ⟨cur, ⟨s.remaining.bits - z.bits, s.remaining.refs - z.refs⟩, b :: bs⟩ ∧ b.WF ∧
      b.inner.bits.length + z.bits ≤ cur.bits ∧ b.refs.length + z.refs ≤ cur.refs ∧ (∀ x ∈ bs, x.WF ∧ x.refs.length ≤ 3) ∧ cur.bits ≤ 1023 ∧ cur.refs ≤ 4 ∧
      (∀ b', ModeOk ver ⟨cur, ⟨s.remaining.bits - z.bits, s.remaining.refs - z.refs⟩, b' :: bs⟩ need m) ∧
      stackBits (b :: bs) = stackBits s.stack ∧ stackRefs (b :: bs) = stackRefs s.stack := by
  obtain ⟨cur0, rem, st⟩ := s
  obtain ⟨hs, hb, hr, hm⟩ := h
  dsimp only at hs hb hr hm ⊢
  have eb : (z + need).bits = z.bits + need.bits := rfl
  have er : (z + need).refs = z.refs + need.refs := rfl
  rw [require_eq]
  have hno : ¬ ((decide (cur0.bits > 1023) || decide (cur0.refs > 4)) = true) := by simp; omega
  rw [if_neg hno]
  have wfnew : (CellB.new : CellB Cell).WF := CellB.wf_new
  have new1 : (CellB.new : CellB Cell).inner.bits.length = 0 := rfl
  have new2 : (CellB.new : CellB Cell).refs.length = 0 := rfl
  -- the builders
  have hst : ∃ b bs, orNew st = b :: bs ∧ StackOk cur0 (b :: bs) ∧ stackBits (b :: bs) = stackBits st ∧
      stackRefs (b :: bs) = stackRefs st ∧ (st.length ≤ 1 → bs = []) := by
    cases st with
    | nil => exact ⟨CellB.new, [], rfl, ⟨wfnew, Nat.zero_le _, Nat.zero_le _, fun x hx => by cases hx⟩, by simp [new1], by simp [new2], fun _ => rfl⟩
    | cons b bs =>
      refine ⟨b, bs, rfl, hs, rfl, rfl, fun hl => ?_⟩
      cases bs with
      | nil => rfl
      | cons => simp at hl
  obtain ⟨b, bs, e0, ⟨k1, k2, k3, k4⟩, k5, k6, k7⟩ := hst
  rw [e0]
  cases hin : inPlace ver ⟨1023 - cur0.bits, 4 - cur0.refs⟩ ⟨rem.bits - z.bits, rem.refs - z.refs⟩ z with
  | true =>
    rw [if_pos rfl]
    have hin' := hin
    obtain ⟨i1, i2, i3⟩ := inPlace_true hin
    dsimp only at i1 i2 i3
    have hfull : z.refs > 0 → z.refs = 4 - cur0.refs → ver.major ≠ 1 ∧ rem.refs - z.refs = 0 ∧ rem.bits - z.bits + z.bits ≤ 1023 - cur0.bits := by
      intro g1 g2
      unfold inPlace at hin'
      have n1 : ¬ ((decide (z.bits > 1023 - cur0.bits) || decide (z.refs > 4 - cur0.refs)) = true) := by simp; omega
      have n2 : (decide (z.refs > 0) && (z.refs == 4 - cur0.refs)) = true := by simp; omega
      dsimp only at hin'
      rw [if_neg n1, if_pos n2] at hin'
      simp only [Bool.and_eq_true, bne_iff_ne, beq_iff_eq, decide_eq_true_eq] at hin'
      exact ⟨hin'.1.1, hin'.1.2, hin'.2⟩
    refine ⟨b, bs, cur0 + z, rfl, k1, ?_, ?_, k4, ?_, ?_, fun b' => ?_, k5, k6⟩
    · show _ ≤ cur0.bits + z.bits; omega
    · show _ ≤ cur0.refs + z.refs; omega
    · show cur0.bits + z.bits ≤ 1023; omega
    · show cur0.refs + z.refs ≤ 4; omega
    · have e1 : (cur0 + z).bits = cur0.bits + z.bits := rfl
      have e2 : (cur0 + z).refs = cur0.refs + z.refs := rfl
      cases m with
      | one =>
        obtain ⟨a1, a2⟩ := hm
        refine ⟨a1, ?_⟩
        show cur0.refs + z.refs ≤ 3
        by_cases g : z.refs > 0 ∧ z.refs = 4 - cur0.refs
        · exact absurd a1 (hfull g.1 g.2).1
        · have a2' : cur0.refs ≤ 3 := a2
          omega
      | covered =>
        obtain ⟨a1, a2, a3⟩ := hm
        dsimp only at a1 a2 a3
        refine ⟨?_, ?_, fun e => ?_⟩
        · show need.bits ≤ rem.bits - z.bits; omega
        · show need.refs ≤ rem.refs - z.refs; omega
        · have e' : cur0.refs + z.refs = 4 := e
          show cur0.bits + z.bits + need.bits ≤ 1023 ∧ need.refs = 0
          by_cases g : z.refs > 0
          · obtain ⟨_, f2, f3⟩ := hfull g (by omega)
            omega
          · have := a3 (by omega)
            omega
      | small =>
        obtain ⟨a1, a2, a3⟩ := hm
        dsimp only at a1 a2 a3
        rw [k7 a3]
        exact ⟨by show cur0.bits + z.bits + need.bits ≤ 1023; omega, by show cur0.refs + z.refs + need.refs ≤ 3; omega, Nat.le_refl 1⟩
  | false =>
    rw [if_neg (by decide)]
    have hleft : cur0.refs ≤ 3 := by
      refine Classical.byContradiction fun hn => ?_
      cases m with
      | one => obtain ⟨_, a2⟩ := hm; exact hn a2
      | covered =>
        obtain ⟨a1, a2, a3⟩ := hm
        dsimp only at a1 a2 a3
        have := a3 (by omega)
        have hin' := hin
        unfold inPlace at hin'
        have n1 : ¬ ((decide (z.bits > 1023 - cur0.bits) || decide (z.refs > 4 - cur0.refs)) = true) := by simp; omega
        have n2 : ¬ ((decide (z.refs > 0) && (z.refs == 4 - cur0.refs)) = true) := by simp; omega
        dsimp only at hin'
        rw [if_neg n1, if_neg n2] at hin'
        cases hin'
      | small => obtain ⟨_, a2, _⟩ := hm; dsimp only at a2; omega
    refine ⟨CellB.new, b :: bs, z, rfl, wfnew, by rw [new1]; omega, by rw [new2]; omega, ?_, hz1, by omega, fun b' => ?_, ?_, ?_⟩
    · intro x hx
      rcases List.mem_cons.mp hx with rfl | hx
      · exact ⟨k1, by omega⟩
      · exact k4 x hx
    · cases m with
      | one => exact ⟨hm.1, hz2⟩
      | covered =>
        obtain ⟨a1, a2, a3⟩ := hm
        dsimp only at a1 a2 a3
        exact ⟨by show need.bits ≤ rem.bits - z.bits; omega, by show need.refs ≤ rem.refs - z.refs; omega, fun e => by have e' : z.refs = 4 := e; omega⟩
      | small =>
        exfalso
        obtain ⟨a1, a2, a3⟩ := hm
        dsimp only at a1 a2 a3
        have hin' := hin
        unfold inPlace at hin'
        have n1 : ¬ ((decide (z.bits > 1023 - cur0.bits) || decide (z.refs > 4 - cur0.refs)) = true) := by simp; omega
        have n2 : ¬ ((decide (z.refs > 0) && (z.refs == 4 - cur0.refs)) = true) := by simp; omega
        dsimp only at hin'
        rw [if_neg n1, if_neg n2] at hin'
        cases hin'
    · rw [stackBits_cons, new1, k5]; omega
    · rw [stackRefs_cons, new2, k6]; omega

theorem put_room {ver : Ver} {m : Mode} {s : Ser} {z need : Size} {w : Wr Cell Unit} {e : Leaf} (h : Room ver m s (z + need)) (hz1 : z.bits ≤ 1023)
    (hz2 : z.refs ≤ 3) (hw : Writes w e) (h1 : e.1.length ≤ z.bits) (h2 : e.2.length ≤ z.refs) :
    ∃ s', put ver z w s = .ok s' ∧ Room ver m s' need ∧ stackBits s'.stack = stackBits s.stack + e.1.length ∧
      stackRefs s'.stack = stackRefs s.stack + e.2.length := by
  obtain ⟨b, bs, cur, e0, k1, k2, k3, k4, k5, k6, k7, k8, k9⟩ := require_room h hz1 hz2
  obtain ⟨b', r, wf, l1, l2⟩ := stores_in hw k1 (by omega) (by omega)
  unfold put
  rw [e0]
  change ∃ s', (match w b with
      | (.error e, _) => (Except.error e : Except Err Ser)
      | (.ok _, b') => .ok ⟨cur, ⟨s.remaining.bits - z.bits, s.remaining.refs - z.refs⟩, b' :: bs⟩) = .ok s' ∧ _
  rw [r]
  refine ⟨_, rfl, ⟨⟨wf, ?_, ?_, k4⟩, k5, k6, k7 b'⟩, ?_, ?_⟩
  · show b'.inner.bits.length ≤ cur.bits; omega
  · show b'.refs.length ≤ cur.refs; omega
  · show stackBits (b' :: bs) = _
    rw [stackBits_cons] at k8 ⊢; omega
  · show stackRefs (b' :: bs) = _
    rw [stackRefs_cons] at k9 ⊢; omega

/-! ### Taking the result out -/

theorem build_all {acc : Cell → Bool} (hacc : ∀ c, acc c = true) (b : CellB Cell) : ∃ c, build acc b = .ok c := by
  unfold build buildSl
  rw [if_pos (hacc _)]
  exact ⟨_, rfl⟩

theorem nest_room {acc : Cell → Bool} (hacc : ∀ c, acc c = true) : ∀ (bs : List (CellB Cell)) (b : CellB Cell), b.WF → (∀ x ∈ bs, x.WF ∧ x.refs.length ≤ 3) →
    ∃ b', nest acc b bs = .ok b' ∧ b'.WF ∧ b'.inner.bits.length ≤ stackBits (b :: bs)
  | [], b, wf, _ => ⟨b, rfl, wf, by simp⟩
  | x :: bs, b, wf, h => by
    obtain ⟨c, hc⟩ := build_all hacc b
    obtain ⟨hx1, hx2⟩ := h x List.mem_cons_self
    have hx3 : x.inner.bits.length ≤ 1023 := hx1.contents_fits.1
    obtain ⟨x', r, wf', l1, _⟩ := stores_in (Wr.writes_ref c).writes hx1 (show x.inner.bits.length + 0 ≤ 1023 by omega) (show x.refs.length + 1 ≤ 4 by omega)
    obtain ⟨b', n1, n2, n3⟩ := nest_room hacc bs x' wf' fun y hy => h y (List.mem_cons_of_mem _ hy)
    refine ⟨b', ?_, n2, ?_⟩
    · rw [nest, hc]
      change (match (Wr.ref c : Wr Cell Unit) x with
        | (.error e, _) => (Except.error e : Except Err (CellB Cell))
        | (.ok _, b') => nest acc b' bs) = _
      rw [r]
      exact n1
    · rw [stackBits_cons] at n3 ⊢
      rw [stackBits_cons]
      have : x'.inner.bits.length = x.inner.bits.length + 0 := l1
      omega

theorem finalize_room {acc : Cell → Bool} (hacc : ∀ c, acc c = true) {ver : Ver} {m : Mode} {s : Ser} {need : Size} (h : Room ver m s need) :
    ∃ b, finalize acc s = .ok b ∧ b.WF ∧ b.inner.bits.length ≤ stackBits s.stack ∧ (m = .small → b.refs.length ≤ stackRefs s.stack) := by
  unfold finalize
  have hst := h.stack
  have hm := h.mode
  cases he : s.stack with
  | nil => exact ⟨CellB.new, rfl, CellB.wf_new, Nat.zero_le _, fun _ => Nat.zero_le _⟩
  | cons b bs =>
    rw [he] at hst
    obtain ⟨k1, k2, k3, k4⟩ := hst
    obtain ⟨b', n1, n2, n3⟩ := nest_room hacc bs b k1 k4
    refine ⟨b', n1, n2, n3, fun e => ?_⟩
    subst e
    have hl := hm.2.2
    rw [he] at hl
    cases bs with
    | nil => injection n1 with n1; subst n1; simp
    | cons => simp at hl

end Abi
end Verif
