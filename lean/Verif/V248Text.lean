import Verif.V248Props
/-
Model of the text form of `VarUint248` (`num/varuint248.rs:1140-1303`) and its properties (C54).
Text is a list of characters; the code works on the UTF-8 bytes, which for the accepted (ASCII) texts are
the characters, and a byte of a multi-byte character is refused like any other non-digit.
-/
set_option linter.unusedVariables false
set_option linter.unusedSimpArgs false
namespace Verif
namespace V248

/-- `varuint248.rs:1146-1151` `DEC_DIGITS_LUT` -/
def decLut : List Char :=
  ['0', '0', '0', '1', '0', '2', '0', '3', '0', '4', '0', '5', '0', '6', '0', '7', '0', '8', '0', '9',
   '1', '0', '1', '1', '1', '2', '1', '3', '1', '4', '1', '5', '1', '6', '1', '7', '1', '8', '1', '9',
   '2', '0', '2', '1', '2', '2', '2', '3', '2', '4', '2', '5', '2', '6', '2', '7', '2', '8', '2', '9',
   '3', '0', '3', '1', '3', '2', '3', '3', '3', '4', '3', '5', '3', '6', '3', '7', '3', '8', '3', '9',
   '4', '0', '4', '1', '4', '2', '4', '3', '4', '4', '4', '5', '4', '6', '4', '7', '4', '8', '4', '9',
   '5', '0', '5', '1', '5', '2', '5', '3', '5', '4', '5', '5', '5', '6', '5', '7', '5', '8', '5', '9',
   '6', '0', '6', '1', '6', '2', '6', '3', '6', '4', '6', '5', '6', '6', '6', '7', '6', '8', '6', '9',
   '7', '0', '7', '1', '7', '2', '7', '3', '7', '4', '7', '5', '7', '6', '7', '7', '7', '8', '7', '9',
   '8', '0', '8', '1', '8', '2', '8', '3', '8', '4', '8', '5', '8', '6', '8', '7', '8', '8', '8', '9',
   '9', '0', '9', '1', '9', '2', '9', '3', '9', '4', '9', '5', '9', '6', '9', '7', '9', '8', '9', '9']

/-- Copies the two characters of `d < 100` in front of the text written so far; the buffer has 79 bytes
(`varuint248.rs:1157`) and running out of it would be an out-of-bounds write. -/
def put2 (d : Nat) (buf : List Char) : Except Err (List Char) :=
  if buf.length + 2 ≤ 79 then .ok (decLut.getD (d <<< 1) 'x' :: decLut.getD ((d <<< 1) + 1) 'x' :: buf) else .error .fault

/-- `varuint248.rs:1170-1184`: four characters at a time. The fuel stands for the loop; see `C54_display`. -/
def fmtLoop : Nat → V248 → List Char → Except Err (V248 × List Char)
  | 0, _, _ => .error .fault
  | fuel + 1, n, buf =>
    if n.cmp (ofU128 10000) ≠ .lt then do
      let (_, rem) ← n.udivmod (ofU128 10000)
      let (q, _) ← n.udivmod (ofU128 10000)
      let rem := rem.lo % 2 ^ 64
      let buf ← put2 (rem % 100) buf
      let buf ← put2 (rem / 100) buf
      fmtLoop fuel q buf
    else pure (n, buf)

/-- `varuint248.rs:1187-1205`: the last one to four characters. -/
def fmtTail (n : Nat) (buf : List Char) : Except Err (List Char) := do
  let (n, buf) ← (if 100 ≤ n then do
      let buf ← put2 (n % 100) buf
      pure (n / 100, buf)
    else pure (n, buf))
  if n < 10 then
    if buf.length + 1 ≤ 79 then pure (Nat.digitChar n :: buf) else .error .fault
  else put2 n buf

/-- `varuint248.rs:1140-1217` `Display` without width or flags. -/
def display (n : V248) : Except Err (List Char) := do
  let (n, buf) ← fmtLoop 20 n []
  fmtTail (n.lo % 2 ^ 64) buf

/-- The error kinds of `ParseIntError` that can occur. -/
inductive PErr where
  | empty | invalidDigit | posOverflow | panic
  deriving DecidableEq, Repr

/-- `char::to_digit` -/
def toDigit (radix : Nat) (c : Char) : Option Nat :=
  let n := c.toNat
  let d := if '0'.toNat ≤ n ∧ n ≤ '9'.toNat then some (n - '0'.toNat)
    else if 'a'.toNat ≤ n ∧ n ≤ 'z'.toNat then some (n - 'a'.toNat + 10)
    else if 'A'.toNat ≤ n ∧ n ≤ 'Z'.toNat then some (n - 'A'.toNat + 10)
    else none
  match d with
  | some v => if v < radix then some v else none
  | none => none

/-- One round of the unchecked loop `varuint248.rs:1276-1282` (`MulAssign` and the `AddAssign` operator). -/
def parseStepFast (radix : Nat) (r : V248) (c : Char) : Except PErr V248 :=
  match r.mulOp (ofU128 radix) with
  | .error _ => .error .panic
  | .ok r => match toDigit radix c with
    | none => .error .invalidDigit
    | some x => .ok (r.addOp (ofU128 x))

/-- One round of the checked loop `varuint248.rs:1284-1299`. -/
def parseStepSlow (radix : Nat) (r : V248) (c : Char) : Except PErr V248 :=
  match r.checkedMul (ofU128 radix) with
  | .error _ => .error .panic
  | .ok none => .error .posOverflow
  | .ok (some r) => match toDigit radix c with
    | none => .error .invalidDigit
    | some x => match r.checkedAdd (ofU128 x) with
      | none => .error .posOverflow
      | some r => .ok r

/-- A loop over the characters that stops at the first error. -/
def parseLoop (step : V248 → Char → Except PErr V248) : V248 → List Char → Except PErr V248
  | r, [] => .ok r
  | r, c :: cs => match step r c with
    | .error e => .error e
    | .ok r => parseLoop step r cs

/-- `varuint248.rs:1252-1258`: sign handling. -/
def stripSign : List Char → Except PErr (List Char)
  | [] => .error .empty
  | ['+'] => .error .invalidDigit
  | ['-'] => .error .invalidDigit
  | '+' :: t => .ok t
  | t => .ok t

/-- `varuint248.rs:1227-1303` `from_str_radix` without prefix (also `:67-69`, `FromStr` with radix 10 and the
human-readable `Deserialize`). -/
def fromStrRadix (radix : Nat) (src : List Char) : Except PErr V248 :=
  if 2 ≤ radix ∧ radix ≤ 36 then
    match stripSign src with
    | .error e => .error e
    | .ok digits =>
      if radix ≤ 16 ∧ digits.length ≤ 64 then parseLoop (parseStepFast radix) zero digits
      else parseLoop (parseStepSlow radix) zero digits
  else .error .panic

/-! ### Display -/

theorem decLut_spec : ∀ d, d < 100 → decLut.getD (d <<< 1) 'x' = Nat.digitChar (d / 10) ∧
    decLut.getD ((d <<< 1) + 1) 'x' = Nat.digitChar (d % 10) := by decide +kernel

theorem digits_len : ∀ k n, n < 10 ^ (k + 1) → (Nat.toDigits 10 n).length ≤ k + 1
  | 0, n, h => by rw [Nat.toDigits_of_lt_base (by simpa using h)]; simp
  | k + 1, n, h => by
    by_cases h10 : n < 10
    · rw [Nat.toDigits_of_lt_base h10]; simp
    · rw [Nat.toDigits_of_base_le (by decide) (by omega), List.length_append]
      have : n / 10 < 10 ^ (k + 1) := by
        rw [Nat.div_lt_iff_lt_mul (by decide)]
        rwa [Nat.pow_succ] at h
      have := digits_len k (n / 10) this
      simp; omega

/-- Two digits from the right. -/
theorem digits_two {n : Nat} (h : 100 ≤ n) :
    Nat.toDigits 10 n = Nat.toDigits 10 (n / 100) ++ [Nat.digitChar (n % 100 / 10), Nat.digitChar (n % 100 % 10)] := by
  rw [Nat.toDigits_of_base_le (by decide) (by omega), Nat.toDigits_of_base_le (b := 10) (n := n / 10) (by decide) (by omega),
    Nat.div_div_eq_div_mul, List.append_assoc]
  have e1 : n / 10 % 10 = n % 100 / 10 := by omega
  have e2 : n % 10 = n % 100 % 10 := by omega
  rw [e1, e2]
  rfl

theorem put2_ok {d : Nat} {buf : List Char} (hd : d < 100) (h : buf.length + 2 ≤ 79) :
    put2 d buf = .ok (Nat.digitChar (d / 10) :: Nat.digitChar (d % 10) :: buf) := by
  unfold put2
  rw [if_pos h, (decLut_spec d hd).1, (decLut_spec d hd).2]

theorem fmtTail_spec {n : Nat} {buf : List Char} (hn : n < 10000) (hb : (Nat.toDigits 10 n).length + buf.length ≤ 79) :
    fmtTail n buf = .ok (Nat.toDigits 10 n ++ buf) := by
  have small : ∀ m (b : List Char), m < 100 → (Nat.toDigits 10 m).length + b.length ≤ 79 →
      (if m < 10 then
        if b.length + 1 ≤ 79 then (pure (Nat.digitChar m :: b) : Except Err (List Char)) else .error .fault
       else put2 m b) = .ok (Nat.toDigits 10 m ++ b) := by
    intro m b hm hl
    by_cases h10 : m < 10
    · rw [Nat.toDigits_of_lt_base h10] at hl ⊢
      rw [if_pos h10, if_pos (by simp at hl; omega)]
      rfl
    · have e : Nat.toDigits 10 m = [Nat.digitChar (m / 10), Nat.digitChar (m % 10)] := by
        rw [Nat.toDigits_of_base_le (by decide) (by omega), Nat.toDigits_of_lt_base (by omega)]; rfl
      rw [e] at hl ⊢
      rw [if_neg h10, put2_ok hm (by simp at hl; omega)]
      rfl
  unfold fmtTail
  by_cases h100 : 100 ≤ n
  · rw [if_pos h100]
    rw [digits_two h100] at hb ⊢
    simp only [List.length_append, List.length_cons, List.length_nil] at hb
    rw [put2_ok (by omega) (by omega), ok_bind]
    show (if n / 100 < 10 then _ else _) = _
    rw [small (n / 100) _ (by omega) (by simp; omega)]
    simp
  · rw [if_neg h100]
    exact small n buf (by omega) hb

theorem ofU128_val (x : Nat) : (ofU128 x).val = x := by
  show 0 * W128 + x = x
  rw [Nat.zero_mul, Nat.zero_add x]

theorem ofU128_wf {x : Nat} (h : x < W128) : (ofU128 x).WF := ⟨W128_pos, h⟩

theorem lo_of_small {a : V248} (h : a.val < 2 ^ 64) : a.lo % 2 ^ 64 = a.val := by
  obtain ⟨_, h2⟩ := hi_zero (by decide) h
  rw [h2] at h ⊢
  exact Nat.mod_eq_of_lt h

theorem fmtLoop_spec : ∀ fuel (n : V248) buf, n.WF → n.val < 10000 ^ fuel → 0 < fuel →
    (Nat.toDigits 10 n.val).length + buf.length ≤ 79 →
    ∃ m b, fmtLoop fuel n buf = .ok (m, b) ∧ m.WF ∧ m.val < 10000 ∧
      (Nat.toDigits 10 m.val).length + b.length ≤ 79 ∧ Nat.toDigits 10 m.val ++ b = Nat.toDigits 10 n.val ++ buf := by
  intro fuel
  induction fuel with
  | zero => intro _ _ _ _ h; omega
  | succ fuel ih =>
    intro n buf hw hn _ hb
    have hK : (ofU128 10000).WF := ofU128_wf (by decide)
    have hKv : (ofU128 10000).val = 10000 := ofU128_val _
    unfold fmtLoop
    rw [C43_v248 hw hK, hKv]
    by_cases hlt : n.val < 10000
    · rw [if_neg (by rw [Nat.compare_eq_lt.2 hlt]; simp)]
      exact ⟨n, buf, rfl, hw, hlt, hb, rfl⟩
    · rw [if_pos (fun h => hlt (Nat.compare_eq_lt.1 h))]
      obtain ⟨q, r, e, hq, hr, vq, vr⟩ := (C42_div hw hK).1 (by rw [hKv]; decide)
      rw [hKv] at vq vr
      rw [e, ok_bind]
      dsimp only
      rw [ok_bind]
      dsimp only
      have hrl : r.lo % 2 ^ 64 = n.val % 10000 := by
        have hm := Nat.mod_lt n.val (show 0 < 10000 by decide)
        rw [← vr] at hm ⊢
        exact lo_of_small (Nat.lt_trans hm (by decide))
      rw [hrl]
      have hd1 := digits_two (n := n.val) (by omega)
      have hd2 := digits_two (n := n.val / 100) (by omega)
      rw [Nat.div_div_eq_div_mul] at hd2
      have hlen : (Nat.toDigits 10 n.val).length = (Nat.toDigits 10 (n.val / 10000)).length + 4 := by
        rw [hd1, hd2]; simp
      rw [put2_ok (by omega) (by omega), ok_bind, put2_ok (by omega) (by simp; omega), ok_bind]
      have hpow : q.val < 10000 ^ fuel := by
        rw [vq, Nat.div_lt_iff_lt_mul (by decide)]
        rwa [Nat.pow_succ] at hn
      have hfuel : 0 < fuel := by
        cases fuel with
        | zero => exfalso; simp at hn; omega
        | succ k => omega
      have hbl : ∀ x1 x2 x3 x4 : Char, (Nat.toDigits 10 q.val).length + (x1 :: x2 :: x3 :: x4 :: buf).length ≤ 79 := by
        intro _ _ _ _
        rw [vq]; simp only [List.length_cons]; omega
      obtain ⟨m, b, e2, w2, l2, len2, t2⟩ := ih q _ hq hpow hfuel (hbl _ _ _ _)
      refine ⟨m, b, e2, w2, l2, len2, ?_⟩
      have f1 : n.val % 10000 / 100 = n.val / 100 % 100 := by omega
      have f2 : n.val % 10000 % 100 = n.val % 100 := by omega
      rw [t2, vq, hd1, hd2, f1, f2]
      simp only [List.append_assoc, List.cons_append, List.nil_append]

/-- C54: the text of a value is its usual decimal notation, and the fixed buffer is large enough for
every pair of words. -/
theorem C54_display {a : V248} (h : a.WF) : a.display = .ok (Nat.toDigits 10 a.val) := by
  unfold display
  have hv : a.val < 2 ^ 256 := by have := val_lt h; rwa [← pow256] at this
  have hlen : (Nat.toDigits 10 a.val).length ≤ 78 := digits_len 77 _ (Nat.lt_of_lt_of_le hv (by decide))
  obtain ⟨m, b, e, w, l, len, t⟩ := fmtLoop_spec 20 a [] h (Nat.lt_of_lt_of_le hv (by decide)) (by decide) (by simp; omega)
  rw [e, ok_bind]
  dsimp only
  rw [lo_of_small (Nat.lt_trans l (by decide)), fmtTail_spec l len, t, List.append_nil]

/-! ### Parsing -/

/-- Specification: the digit values of a text, if every character is a digit of the radix. -/
def digitsOf (radix : Nat) (cs : List Char) : Option (List Nat) := cs.mapM (toDigit radix)

/-- Specification: the number written by digits, most significant first. -/
def numOf (radix : Nat) (ds : List Nat) : Nat := ds.foldl (fun acc d => acc * radix + d) 0

theorem toDigit_lt {radix : Nat} {c : Char} {x : Nat} (h : toDigit radix c = some x) : x < radix := by
  unfold toDigit at h
  dsimp only at h
  split at h
  · split at h
    · injection h with h; omega
    · cases h
  · cases h

theorem fast_step {radix x : Nat} {r : V248} {c : Char} (hr : r.WF) (h36 : radix ≤ 36) (hc : toDigit radix c = some x) :
    ∃ r', parseStepFast radix r c = .ok r' ∧ r'.WF ∧ r'.val = r.val * radix % W128 + x := by
  have hx := toDigit_lt hc
  have hW : 100 < W128 := by decide
  have hrad : radix < W128 := Nat.lt_of_le_of_lt h36 (by decide)
  have hxW : x < W128 := Nat.lt_trans hx hrad
  obtain ⟨p, e, hp, hv⟩ := (C42_ops hr (ofU128_wf hrad)).1
  unfold parseStepFast
  rw [e, hc]
  refine ⟨_, rfl, (C42_add_operator_partial hp (ofU128_wf hxW)).1, ?_⟩
  rw [ofU128_val, pow256] at hv
  have hlo : p.lo = r.val * radix % W128 := by
    have : p.val % W128 = p.lo := by
      show (p.hi * W128 + p.lo) % W128 = p.lo
      rw [Nat.mul_comm, Nat.mul_add_mod, Nat.mod_eq_of_lt hp.2]
    rw [← this, hv, Nat.mod_mul_left_mod]
  obtain ⟨lo, c1, e1, l1, v1⟩ := oadd_spec hp.2 (Nat.le_of_lt hxW)
  have hop : p.addOp (ofU128 x) = ⟨wadd (wadd 0 c1.toNat) 0, lo⟩ := by
    unfold addOp ofU128; dsimp only; rw [e1]
  have hc1 : c1.toNat < W128 := by cases c1 <;> decide
  have hw : wadd (wadd 0 c1.toNat) 0 = c1.toNat := by
    unfold wadd
    rw [Nat.add_zero, Nat.zero_add c1.toNat, Nat.mod_mod, Nat.mod_eq_of_lt hc1]
  rw [hop, hw, ← hlo, ← v1, Nat.add_comm lo]
  rfl

theorem fast_loop {radix : Nat} (h36 : radix ≤ 36) : ∀ (cs : List Char) (ds : List Nat) (r : V248) (p : Nat), r.WF →
    digitsOf radix cs = some ds → r.val % W128 = p % W128 → cs ≠ [] →
    ∃ r', parseLoop (parseStepFast radix) r cs = .ok r' ∧ r'.WF ∧
      ∀ v, v = ds.foldl (fun acc d => acc * radix + d) p → r'.val = (radix * (v / radix)) % W128 + v % radix := by
  intro cs
  induction cs with
  | nil => intro _ _ _ _ _ _ h; exact absurd rfl h
  | cons c cs ih =>
    intro ds r p hr hd hm _
    unfold digitsOf at hd
    rw [List.mapM_cons] at hd
    cases hc : toDigit radix c with
    | none => rw [hc] at hd; cases hd
    | some x =>
      cases hcs : cs.mapM (toDigit radix) with
      | none => rw [hc, hcs] at hd; cases hd
      | some xs =>
        rw [hc, hcs] at hd
        have hd : ds = x :: xs := by injection hd with hd; exact hd.symm
        subst hd
        have hx := toDigit_lt hc
        obtain ⟨r', e, hr', hv⟩ := fast_step hr h36 hc
        unfold parseLoop
        rw [e]
        dsimp only
        have hv2 : r'.val = p * radix % W128 + x := by
          rw [hv, Nat.mul_mod, hm, ← Nat.mul_mod]
        cases cs with
        | nil =>
          refine ⟨r', rfl, hr', ?_⟩
          have : xs = [] := by
            have : (some [] : Option (List Nat)) = some xs := hcs
            injection this with this; exact this.symm
          subst this
          rintro v rfl
          show r'.val = _
          simp only [List.foldl_cons, List.foldl_nil]
          rw [hv2]
          have hpos : 0 < radix := by omega
          rw [Nat.mul_comm p radix, Nat.mul_add_div hpos, Nat.div_eq_of_lt hx, Nat.add_zero, Nat.mul_add_mod, Nat.mod_eq_of_lt hx]
        | cons c2 cs =>
          have hm2 : r'.val % W128 = (p * radix + x) % W128 := by rw [hv2, Nat.mod_add_mod]
          obtain ⟨r2, e2, h2, v2⟩ := ih xs r' (p * radix + x) hr' hcs hm2 (by simp)
          exact ⟨r2, e2, h2, v2⟩

theorem fold_ge {radix : Nat} (hr : 1 ≤ radix) : ∀ (ds : List Nat) (p : Nat), p ≤ ds.foldl (fun acc d => acc * radix + d) p
  | [], p => Nat.le_refl _
  | d :: ds, p => by
    rw [List.foldl_cons]
    refine Nat.le_trans ?_ (fold_ge hr ds _)
    have := Nat.le_mul_of_pos_right p hr
    omega

theorem slow_loop {radix : Nat} (h2 : 2 ≤ radix) (h36 : radix ≤ 36) : ∀ (cs : List Char) (ds : List Nat) (r : V248), r.WF →
    r.val < 2 ^ 248 → digitsOf radix cs = some ds →
    ∀ v, v = ds.foldl (fun acc d => acc * radix + d) r.val →
    (v < 2 ^ 248 → ∃ r', parseLoop (parseStepSlow radix) r cs = .ok r' ∧ r'.WF ∧ r'.val = v) ∧
    (2 ^ 248 ≤ v → parseLoop (parseStepSlow radix) r cs = .error .posOverflow) := by
  intro cs
  induction cs with
  | nil =>
    intro ds r hr hv hd
    have : ds = [] := by
      have hd : (some [] : Option (List Nat)) = some ds := hd
      injection hd with hd; exact hd.symm
    subst this
    rintro v rfl
    refine ⟨fun _ => ⟨r, rfl, hr, rfl⟩, fun h => absurd hv (Nat.not_lt_of_le h)⟩
  | cons c cs ih =>
    intro ds r hr hv hd
    unfold digitsOf at hd
    rw [List.mapM_cons] at hd
    cases hc : toDigit radix c with
    | none => rw [hc] at hd; cases hd
    | some x =>
      cases hcs : cs.mapM (toDigit radix) with
      | none => rw [hc, hcs] at hd; cases hd
      | some xs =>
        rw [hc, hcs] at hd
        have hd : ds = x :: xs := by injection hd with hd; exact hd.symm
        subst hd
        have hx := toDigit_lt hc
        have hrad : radix < W128 := Nat.lt_of_le_of_lt h36 (by decide)
        have hxW : x < W128 := Nat.lt_trans hx hrad
        rintro v rfl
        rw [List.foldl_cons]
        obtain ⟨o, eo, ho, hn, _⟩ := C42_mul_partial hr (ofU128_wf hrad) hv
        rw [ofU128_val] at ho hn
        have hsmall : r.val * radix < 2 ^ 256 := by
          have h1 : r.val * radix ≤ r.val * 36 := Nat.mul_le_mul_left _ h36
          have h2 : r.val * 36 < 2 ^ 248 * 36 := Nat.mul_lt_mul_of_pos_right hv (by decide)
          exact Nat.lt_of_le_of_lt h1 (Nat.lt_trans h2 (by decide))
        cases o with
        | none => exact absurd hsmall (Nat.not_lt_of_le (hn.1 rfl))
        | some m =>
          obtain ⟨wm, vm, _⟩ := (ho m).1 rfl
          obtain ⟨a1, a2, _⟩ := C42_add wm (ofU128_wf hxW)
          rw [ofU128_val, vm] at a1 a2
          unfold parseLoop parseStepSlow
          rw [eo, hc]
          dsimp only
          cases ha : m.checkedAdd (ofU128 x) with
          | none =>
            have := a2.1 ha
            refine ⟨fun h => ?_, fun _ => rfl⟩
            exact absurd (Nat.lt_of_le_of_lt (fold_ge (by omega) xs _) h) (Nat.not_lt_of_le this)
          | some s =>
            obtain ⟨ws, vs, ls⟩ := (a1 s).1 ha
            rw [← vs] at ls ⊢
            exact ih xs s ws ls hcs _ rfl

/-- C54: what parsing returns for a text of digits (an optional `+` and at least one digit of the radix),
where `v` is the number the text denotes. Texts longer than 64 digits, and radixes above 16, give exactly
`v`, or `PosOverflow` when `v` is `2^248` or more. Shorter texts give
`(radix·⌊v/radix⌋) mod 2^128 + v mod radix`. -/
theorem C54_parse {radix : Nat} (h2 : 2 ≤ radix) (h36 : radix ≤ 36) (plus : Bool) {cs : List Char} {ds : List Nat}
    (hne : cs ≠ []) (hd : digitsOf radix cs = some ds) :
    let text := if plus then '+' :: cs else cs
    let v := numOf radix ds
    ((16 < radix ∨ 64 < cs.length) →
      (v < 2 ^ 248 → ∃ r, fromStrRadix radix text = .ok r ∧ r.WF ∧ r.val = v) ∧
      (2 ^ 248 ≤ v → fromStrRadix radix text = .error .posOverflow)) ∧
    ((radix ≤ 16 ∧ cs.length ≤ 64) →
      ∃ r, fromStrRadix radix text = .ok r ∧ r.WF ∧ r.val = (radix * (v / radix)) % 2 ^ 128 + v % radix) := by
  intro text v
  obtain ⟨c, t, rfl⟩ : ∃ c t, cs = c :: t := by
    cases cs with
    | nil => exact absurd rfl hne
    | cons c t => exact ⟨c, t, rfl⟩
  have hcd : ∃ x, toDigit radix c = some x := by
    unfold digitsOf at hd
    rw [List.mapM_cons] at hd
    cases hc : toDigit radix c with
    | none => rw [hc] at hd; cases hd
    | some x => exact ⟨x, rfl⟩
  have hplus : c ≠ '+' := by
    rintro rfl
    obtain ⟨x, hx⟩ := hcd
    have : toDigit radix '+' = none := by
      unfold toDigit
      rfl
    rw [this] at hx; cases hx
  have hminus : c ≠ '-' := by
    rintro rfl
    obtain ⟨x, hx⟩ := hcd
    have : toDigit radix '-' = none := by
      unfold toDigit
      rfl
    rw [this] at hx; cases hx
  have hstrip : stripSign text = .ok (c :: t) := by
    show stripSign (if plus then '+' :: c :: t else c :: t) = _
    cases plus
    · simp only [Bool.false_eq_true, if_false]
      unfold stripSign
      split
      · rename_i h; cases h
      · rename_i h; injection h with h _; exact absurd h hplus
      · rename_i h; injection h with h _; exact absurd h hminus
      · rename_i h; injection h with h _; exact absurd h hplus
      · rfl
    · rfl
  unfold fromStrRadix
  rw [if_pos ⟨h2, h36⟩, hstrip]
  dsimp only
  constructor
  · intro hl
    rw [if_neg (by rintro ⟨g1, g2⟩; rcases hl with h | h <;> omega)]
    exact slow_loop h2 h36 (c :: t) ds zero ⟨W128_pos, W128_pos⟩ (by decide) hd v rfl
  · intro hs
    rw [if_pos hs]
    obtain ⟨r, e, w, hv⟩ := fast_loop h36 (c :: t) ds zero 0 ⟨W128_pos, W128_pos⟩ hd rfl (by simp)
    exact ⟨r, e, w, hv v rfl⟩

/-- C54: a text with a character that is not a digit (after an optional `+`) is refused in the short form. -/
theorem C54_reject {radix : Nat} (h2 : 2 ≤ radix) (h16 : radix ≤ 16) {cs : List Char} (hlen : cs.length ≤ 64)
    (hne : cs ≠ []) (hd : digitsOf radix cs = none) (hs : cs.head? ≠ some '+') :
    fromStrRadix radix cs = .error .invalidDigit := by
  have loop : ∀ (cs : List Char) (r : V248), r.WF → digitsOf radix cs = none →
      parseLoop (parseStepFast radix) r cs = .error .invalidDigit := by
    intro cs
    induction cs with
    | nil => intro r _ h; cases h
    | cons c t ih =>
      intro r hr h
      unfold parseLoop
      cases hc : toDigit radix c with
      | none =>
        obtain ⟨p, e, _, _⟩ := (C42_ops hr (ofU128_wf (x := radix) (Nat.lt_of_le_of_lt h16 (by decide)))).1
        have : parseStepFast radix r c = .error .invalidDigit := by
          unfold parseStepFast; rw [e, hc]
        rw [this]
      | some x =>
        obtain ⟨r', e, hr', _⟩ := fast_step hr (by omega) hc
        rw [e]
        apply ih _ hr'
        unfold digitsOf at h ⊢
        rw [List.mapM_cons, hc] at h
        cases hcs : t.mapM (toDigit radix) with
        | none => rfl
        | some xs => rw [hcs] at h; cases h
  unfold fromStrRadix
  rw [if_pos ⟨h2, by omega⟩]
  cases cs with
  | nil => exact absurd rfl hne
  | cons c t =>
    have hc : c ≠ '+' := fun h => hs (by rw [h]; rfl)
    have : stripSign (c :: t) = .ok (c :: t) ∨ stripSign (c :: t) = .error .invalidDigit := by
      unfold stripSign
      split
      · rename_i h; cases h
      · exact Or.inr rfl
      · exact Or.inr rfl
      · rename_i h; injection h with h _; exact absurd h hc
      · exact Or.inl rfl
    rcases this with h | h
    · rw [h]
      dsimp only
      rw [if_pos ⟨h16, hlen⟩]
      exact loop _ zero ⟨W128_pos, W128_pos⟩ hd
    · rw [h]

/-! ### Round trip -/

theorem toDigit_digitChar : ∀ d, d < 10 → toDigit 10 (Nat.digitChar d) = some d := by decide

theorem mapM_append {α β : Type} (f : α → Option β) : ∀ (a b : List α) {x y : List β}, a.mapM f = some x → b.mapM f = some y →
    (a ++ b).mapM f = some (x ++ y)
  | [], b, x, y, h1, h2 => by
    have h1 : (some [] : Option (List β)) = some x := h1
    injection h1 with h1; subst h1; exact h2
  | c :: t, b, x, y, h1, h2 => by
    rw [List.mapM_cons] at h1
    rw [List.cons_append, List.mapM_cons]
    cases hc : f c with
    | none => rw [hc] at h1; cases h1
    | some v =>
      cases ht : t.mapM f with
      | none => rw [hc, ht] at h1; cases h1
      | some vs =>
        rw [hc, ht] at h1
        have h1 : x = v :: vs := by injection h1 with h1; exact h1.symm
        subst h1
        rw [mapM_append f t b ht h2]
        rfl

/-- The decimal notation denotes the number. -/
theorem digits_denote (n : Nat) : ∃ ds, digitsOf 10 (Nat.toDigits 10 n) = some ds ∧ numOf 10 ds = n := by
  induction n using Nat.strongRecOn with
  | _ n ih =>
    by_cases h : n < 10
    · rw [Nat.toDigits_of_lt_base h]
      refine ⟨[n], ?_, by simp [numOf]⟩
      unfold digitsOf
      rw [List.mapM_cons, toDigit_digitChar n h]
      rfl
    · obtain ⟨ds, h1, h2⟩ := ih (n / 10) (by omega)
      rw [Nat.toDigits_of_base_le (by decide) (by omega)]
      refine ⟨ds ++ [n % 10], ?_, ?_⟩
      · apply mapM_append _ _ _ h1
        rw [List.mapM_cons, toDigit_digitChar _ (by omega)]
        rfl
      · unfold numOf at h2 ⊢
        rw [List.foldl_append, h2]
        simp only [List.foldl_cons, List.foldl_nil]
        omega

theorem digits_len_gt : ∀ k n, 10 ^ k ≤ n → k < (Nat.toDigits 10 n).length
  | 0, n, h => by
    by_cases h10 : n < 10
    · rw [Nat.toDigits_of_lt_base h10]; simp
    · rw [Nat.toDigits_of_base_le (by decide) (by omega)]; simp
  | k + 1, n, h => by
    have h10 : 10 ≤ n := by
      have : 10 ^ 1 ≤ 10 ^ (k + 1) := Nat.pow_le_pow_right (by decide) (by omega)
      omega
    rw [Nat.toDigits_of_base_le (by decide) h10, List.length_append]
    have := digits_len_gt k (n / 10) (by
      rw [Nat.le_div_iff_mul_le (by decide)]
      rwa [Nat.pow_succ] at h)
    simp; omega

theorem toDigits_ne_nil (n : Nat) : Nat.toDigits 10 n ≠ [] := by
  intro h
  have := digits_len_gt 0 n
  by_cases h0 : n = 0
  · subst h0; simp at h
  · have := this (by simp; omega)
    rw [h] at this; cases this

/-- C54, violated: the text of `10·2^128` is parsed as `0` — by `FromStr` and by the JSON form. -/
theorem C54_parse_wrong :
    (V248.mk 10 0).WF ∧ (V248.mk 10 0).val = 10 * 2 ^ 128 ∧
    ∃ t, (V248.mk 10 0).display = .ok t ∧ fromStrRadix 10 t = .ok zero := by
  refine ⟨⟨by decide, by decide⟩, by decide, _, C54_display ⟨by decide, by decide⟩, ?_⟩
  decide +kernel

/-- C54, the part that holds: a valid value survives the round trip through its text exactly when it is
below `2^128 + 4` or at least `10^64`. (The property asks for every valid value; `4` is the room left by
the last digit.) -/
theorem C54_round_partial {a : V248} (h : a.WF) (hv : a.val < 2 ^ 248) :
    ∃ t, a.display = .ok t ∧ (fromStrRadix 10 t = .ok a ↔ a.val < 2 ^ 128 + 4 ∨ 10 ^ 64 ≤ a.val) := by
  refine ⟨_, C54_display h, ?_⟩
  obtain ⟨ds, hd, hn⟩ := digits_denote a.val
  have hp := C54_parse (radix := 10) (by decide) (by decide) false (toDigits_ne_nil a.val) hd
  simp only [Bool.false_eq_true, if_false] at hp
  rw [hn] at hp
  by_cases hbig : 10 ^ 64 ≤ a.val
  · obtain ⟨r, e, w, hr⟩ := (hp.1 (Or.inr (digits_len_gt 64 _ hbig))).1 hv
    rw [e, val_inj w h hr]
    exact ⟨fun _ => Or.inr hbig, fun _ => rfl⟩
  · obtain ⟨r, e, w, hr⟩ := hp.2 ⟨by decide, digits_len 63 _ (Nat.lt_of_not_le hbig)⟩
    rw [e]
    have hiff : Except.ok r = (Except.ok a : Except PErr V248) ↔ r.val = a.val := by
      constructor
      · intro h'; injection h' with h'; rw [h']
      · intro h'; rw [val_inj w h h']
    rw [hiff, hr]
    generalize a.val = v at *
    have hd10 := Nat.div_add_mod v 10
    constructor
    · intro heq
      left
      have h1 : 10 * (v / 10) % 2 ^ 128 = 10 * (v / 10) := by omega
      have h2 : 10 * (v / 10) < 2 ^ 128 := by rw [← h1]; exact Nat.mod_lt _ (by decide)
      have hm : v % 10 < 10 := Nat.mod_lt _ (by decide)
      clear hr hp e hn hd hv hbig heq h1
      omega
    · rintro (hlt | hge)
      · have h2 : 10 * (v / 10) < 2 ^ 128 := by
          clear hr hp e hn hd hv hbig hiff
          omega
        rw [Nat.mod_eq_of_lt h2]; exact hd10
      · exact absurd hge hbig

/-- Non-vacuity: a value with a nonzero high word, its text, and the parse of a 70-digit text. -/
example : (V248.mk 1 7).display = .ok (Nat.toDigits 10 (2 ^ 128 + 7)) ∧
    fromStrRadix 10 (Nat.toDigits 10 (10 ^ 69 + 1)) = .ok ⟨(10 ^ 69 + 1) / 2 ^ 128, (10 ^ 69 + 1) % 2 ^ 128⟩ ∧
    fromStrRadix 10 ['1', 'x'] = .error .invalidDigit ∧ fromStrRadix 10 [] = .error .empty := by
  decide +kernel

end V248
end Verif
