import Verif.Text
import Verif.CellLemmas
import Verif.CodecPrims
/-
C49: hexadecimal text of bit strings.
-/
set_option linter.unusedVariables false
set_option linter.unusedSimpArgs false
namespace Verif
open Text
open V248 (toDigit digitsOf)

namespace Bitstring

/-! ### Model -/

/-- `util.rs:418-472` `fmt_hex`, as one text (the code writes chunks of sixteen bytes) -/
def fmtHex (table : List Char) (bytes : List Byte) (bitLen : Nat) : List Char :=
  let bl := min bitLen (8 * bytes.length)
  let bs := bytes.take ((bl + 7) / 8)
  let rem := bl % 8
  match bs.getLast? with
  | some last =>
    if rem ≠ 0 then
      let tagMask : Byte := 1#8 <<< (7 - rem)
      let last' := (last &&& ~~~ (tagMask - 1)) ||| tagMask
      encodeHex table bs.dropLast ++ (if 4 < rem then byteHex table last' else [table.getD (last' >>> 4).toNat '?']) ++
        (if rem ≠ 4 then ['_'] else [])
    else encodeHex table bs
  | none => encodeHex table bs

/-- `util.rs:376-380` `strip_suffix(b"_")` -/
def splitTag (t : List Char) : List Char × Bool :=
  if t.getLast? = some '_' then (t.dropLast, true) else (t, false)

/-- `util.rs:382-388`: the last of an odd number of digits -/
def splitHalf (s : List Char) : Option (Option Nat × List Char) :=
  if s.length % 2 ≠ 0 then
    match s.getLast? with
    | some c =>
      match toDigit 16 c with
      | some h => some (some h, s.dropLast)
      | none => none
    | none => some (none, s)
  else some (none, s)

/-- `util.rs:394-398` -/
def assemble (half : Option Nat) (data : List Byte) : List Byte × Nat :=
  match half with
  | some h => (data ++ [(BitVec.ofNat 8 h) <<< 4], 8 * data.length + 4)
  | none => (data, 8 * data.length)

/-- `util.rs:402-413`: the loop over the reversed bytes -/
def untagLoop : List Byte → Nat → List Byte × Nat
  | [], n => ([], n)
  | b :: t, n =>
    if b = 0 then ((b :: (untagLoop t (n - 8)).1), (untagLoop t (n - 8)).2)
    else ((b &&& ((0xff#8 <<< trailingZeros b) <<< 1)) :: t, n - (1 + trailingZeros b))

/-- `util.rs:402-419` -/
def untag (data : List Byte) : List Byte × Nat :=
  let r := untagLoop data.reverse (8 * data.length)
  (r.1.reverse.take ((r.2 + 7) / 8), r.2)

/-- `util.rs:364-422` `from_hex_str`; the error is always `InvalidData` -/
def fromHexStr (t : List Char) : Option (List Byte × Nat) :=
  if t.all (fun c => decide (c.toNat < 128)) = false ∨ 256 < t.length then none
  else
    match splitHalf (splitTag t).1 with
    | some (half, s) =>
      match decodeHex s with
      | some data => some (if (splitTag t).2 then untag (assemble half data).1 else assemble half data)
      | none => none
    | none => none

/-! ### Specification -/

/-- The bits denoted by a text of hexadecimal digits, four for each. -/
def Nibs (t : List Char) (l : Bits) : Prop := ∃ ds, digitsOf 16 t = some ds ∧ l = ds.flatMap (natBits 4)

/-- The bits before the completion tag: zeros at the end and the one before them are removed. -/
def stripTag (l : Bits) : Bits := ((l.reverse.dropWhile (fun b => b == false)).drop 1).reverse

/-- Bytes that hold exactly the bits, filled with zeros. -/
def Packs (d : List Byte) (l : Bits) : Prop :=
  d.length = (l.length + 7) / 8 ∧ bytesToBits d = l ++ List.replicate (8 * d.length - l.length) false

/-! ### Lemmas -/

theorem stripTag_zeros (l : Bits) (k : Nat) : stripTag (l ++ List.replicate k false) = stripTag l := by
  unfold stripTag
  rw [List.reverse_append, List.reverse_replicate]
  congr 2
  induction k with
  | zero => rfl
  | succ k ih => rw [List.replicate_succ, List.cons_append, List.dropWhile_cons_of_pos (by rfl), ih]

theorem stripTag_tag (l : Bits) : stripTag (l ++ [true]) = l := by
  unfold stripTag
  rw [List.reverse_append]
  show ((List.dropWhile _ (true :: l.reverse)).drop 1).reverse = l
  rw [List.dropWhile_cons_of_neg (by decide)]
  simp

theorem stripTag_nil : stripTag [] = [] := rfl

theorem Packs.unique {a b : List Byte} {l : Bits} (ha : Packs a l) (hb : Packs b l) : a = b := by
  apply bytesToBits_inj
  rw [ha.2, hb.2, ha.1, hb.1]

theorem nibs_nil : Nibs [] [] := ⟨[], rfl, rfl⟩

theorem nibs_append {a b : List Char} {x y : Bits} (ha : Nibs a x) (hb : Nibs b y) : Nibs (a ++ b) (x ++ y) := by
  obtain ⟨d1, h1, rfl⟩ := ha
  obtain ⟨d2, h2, rfl⟩ := hb
  exact ⟨d1 ++ d2, V248.mapM_append _ _ _ h1 h2, by rw [List.flatMap_append]⟩

theorem nibs_single {c : Char} {n : Nat} (h : toDigit 16 c = some n) : Nibs [c] (natBits 4 n) := by
  refine ⟨[n], ?_, by simp⟩
  unfold digitsOf
  rw [List.mapM_cons, h]; rfl

theorem byte_nibs (x : Byte) : natBits 4 (x.toNat / 16) ++ natBits 4 (x.toNat % 16) = wordBits x := by
  rw [wordBits_eq_natBits, natBits_split 4 4 x.toNat]
  congr 1
  exact Wr.natBits_mod (w := 4) (k := 4) (Nat.le_refl _)

theorem nibs_hexOf : ∀ {t : List Char} {bs : List Byte}, HexOf t bs → Nibs t (bytesToBits bs)
  | [], [], _ => nibs_nil
  | a :: b :: t, x :: r, h => by
    have := nibs_append (nibs_append (nibs_single h.1) (nibs_single h.2.1)) (nibs_hexOf h.2.2)
    rw [byte_nibs, ← bytesToBits_cons] at this
    exact this
  | [_], [], h => h.elim
  | [_], _ :: _, h => h.elim
  | [], _ :: _, h => h.elim
  | _ :: _ :: _, [], h => h.elim

theorem nibs_cons {c : Char} {t : List Char} {l : Bits} (h : Nibs (c :: t) l) :
    ∃ n l', toDigit 16 c = some n ∧ Nibs t l' ∧ l = natBits 4 n ++ l' := by
  obtain ⟨ds, h1, h2⟩ := h
  unfold digitsOf at h1
  rw [List.mapM_cons] at h1
  cases hc : toDigit 16 c with
  | none => rw [hc] at h1; cases h1
  | some n =>
    cases ht : t.mapM (toDigit 16) with
    | none => rw [hc, ht] at h1; cases h1
    | some vs =>
      rw [hc, ht] at h1
      have h1 : n :: vs = ds := by injection h1
      subst h1
      exact ⟨n, vs.flatMap (natBits 4), rfl, ⟨vs, ht, rfl⟩, by rw [h2, List.flatMap_cons]⟩

theorem nibs_len {l : Bits} : ∀ {t : List Char}, Nibs t l → l.length = 4 * t.length := by
  intro t
  induction t generalizing l with
  | nil =>
    rintro ⟨ds, h1, rfl⟩
    have h1 : some [] = some ds := h1
    injection h1 with h1; subst h1; rfl
  | cons c t ih =>
    intro h
    obtain ⟨n, l', _, h2, rfl⟩ := nibs_cons h
    have := ih h2
    simp [this]; omega

theorem nibs_unique {t : List Char} {l l' : Bits} (h : Nibs t l) (h' : Nibs t l') : l = l' := by
  obtain ⟨d1, e1, rfl⟩ := h
  obtain ⟨d2, e2, rfl⟩ := h'
  rw [e1] at e2; injection e2 with e2; rw [e2]

theorem nibs_decode : ∀ (n : Nat) {t : List Char} {l : Bits}, t.length ≤ n → t.length % 2 = 0 → Nibs t l →
    ∃ bs, decodeHex t = some bs ∧ bytesToBits bs = l
  | n, [], l, _, _, h => by
    have := nibs_unique h nibs_nil
    exact ⟨[], rfl, this.symm⟩
  | n, [_], l, _, he, _ => by simp at he
  | 0, _ :: _ :: _, l, hl, _, _ => by simp at hl
  | n + 1, a :: b :: t, l, hl, he, h => by
    obtain ⟨x, l1, hx, h1, rfl⟩ := nibs_cons h
    obtain ⟨y, l2, hy, h2, rfl⟩ := nibs_cons h1
    obtain ⟨bs, e1, e2⟩ := nibs_decode n (t := t) (by simp at hl; omega) (by simp at he; omega) h2
    refine ⟨BitVec.ofNat 8 (16 * x + y) :: bs, ?_, ?_⟩
    · unfold decodeHex
      rw [hx, hy, e1]
    · have hx' := V248.toDigit_lt hx
      have hy' := V248.toDigit_lt hy
      rw [bytesToBits_cons, e2, ← byte_nibs, BitVec.toNat_ofNat, List.append_assoc]
      rw [show (16 * x + y) % 2 ^ 8 / 16 = x by omega, show (16 * x + y) % 2 ^ 8 % 16 = y by omega]

theorem decode_nibs {t : List Char} {bs : List Byte} (h : decodeHex t = some bs) : Nibs t (bytesToBits bs) :=
  nibs_hexOf ((decodeHex_spec _ _).1 h)

/-- The byte of a half: the digit and four zeros. -/
theorem half_byte {n : Nat} (h : n < 16) : wordBits ((BitVec.ofNat 8 n) <<< 4) = natBits 4 n ++ List.replicate 4 false := by
  have : ∀ n : Fin 16, wordBits ((BitVec.ofNat 8 n) <<< 4) = natBits 4 n ++ List.replicate 4 false := by decide
  exact this ⟨n, h⟩

/-- What clearing the tag does to a byte. -/
theorem untag_byte (b : Byte) (h : b ≠ 0) : trailingZeros b < 8 ∧
    wordBits b = (wordBits b).take (7 - trailingZeros b) ++ true :: List.replicate (trailingZeros b) false ∧
    wordBits (b &&& ((0xff#8 <<< trailingZeros b) <<< 1)) =
      (wordBits b).take (7 - trailingZeros b) ++ List.replicate (trailingZeros b + 1) false := by
  have : ∀ n : Fin 256, BitVec.ofNat 8 n ≠ 0 → trailingZeros (BitVec.ofNat 8 n) < 8 ∧
    wordBits (BitVec.ofNat 8 n) = (wordBits (BitVec.ofNat 8 n)).take (7 - trailingZeros (BitVec.ofNat 8 n)) ++ true :: List.replicate (trailingZeros (BitVec.ofNat 8 n)) false ∧
    wordBits (BitVec.ofNat 8 n &&& ((0xff#8 <<< trailingZeros (BitVec.ofNat 8 n)) <<< 1)) =
      (wordBits (BitVec.ofNat 8 n)).take (7 - trailingZeros (BitVec.ofNat 8 n)) ++ List.replicate (trailingZeros (BitVec.ofNat 8 n) + 1) false := by
    decide +kernel
  have := this ⟨b.toNat, b.isLt⟩
  simp only [BitVec.ofNat_toNat, BitVec.setWidth_eq] at this
  exact this h

theorem wordBits_zero8 : wordBits (0 : Byte) = List.replicate 8 false := by decide

theorem stripTag_length (l : Bits) : (stripTag l).length ≤ l.length := by
  unfold stripTag
  rw [List.length_reverse, List.length_drop]
  have h : ∀ r : Bits, (r.dropWhile (fun b => b == false)).length ≤ r.length := fun r => (List.dropWhile_sublist _).length_le
  have := h l.reverse
  rw [List.length_reverse] at this
  omega

theorem untagLoop_spec : ∀ r : List Byte, (untagLoop r (8 * r.length)).2 = (stripTag (bytesToBits r.reverse)).length ∧
    bytesToBits (untagLoop r (8 * r.length)).1.reverse =
      stripTag (bytesToBits r.reverse) ++ List.replicate (8 * r.length - (stripTag (bytesToBits r.reverse)).length) false
  | [] => ⟨rfl, rfl⟩
  | b :: t => by
    obtain ⟨i1, i2⟩ := untagLoop_spec t
    unfold untagLoop
    rw [List.reverse_cons, bytesToBits_append, bytesToBits_singleton]
    have hlen : (bytesToBits t.reverse).length = 8 * t.length := by simp
    by_cases hb : b = 0
    · rw [if_pos hb]
      subst hb
      rw [wordBits_zero8, stripTag_zeros, show 8 * (0 :: t : List Byte).length - 8 = 8 * t.length by simp; omega]
      refine ⟨i1, ?_⟩
      dsimp only
      rw [List.reverse_cons, bytesToBits_append, i2, bytesToBits_singleton, wordBits_zero8, List.append_assoc, List.replicate_append_replicate]
      have := stripTag_length (bytesToBits t.reverse)
      congr 2
      simp; omega
    · rw [if_neg hb]
      obtain ⟨h1, h2, h3⟩ := untag_byte b hb
      have e : bytesToBits t.reverse ++ wordBits b = (bytesToBits t.reverse ++ (wordBits b).take (7 - trailingZeros b)) ++ [true] ++
          List.replicate (trailingZeros b) false := by
        rw [List.append_assoc, List.append_assoc]
        congr 1
      rw [e, stripTag_zeros, stripTag_tag]
      dsimp only
      refine ⟨?_, ?_⟩
      · rw [List.length_append, hlen, List.length_take, wordBits_length]
        simp; omega
      · rw [List.reverse_cons, bytesToBits_append, bytesToBits_singleton, h3, List.append_assoc]
        congr 3
        rw [List.length_append, hlen, List.length_take, wordBits_length]
        simp; omega

theorem untagLoop_length : ∀ (r : List Byte) n, (untagLoop r n).1.length = r.length
  | [], n => rfl
  | b :: t, n => by
    unfold untagLoop
    split
    · simp [untagLoop_length t]
    · simp

theorem untag_spec (data : List Byte) : Packs (untag data).1 (stripTag (bytesToBits data)) ∧
    (untag data).2 = (stripTag (bytesToBits data)).length := by
  obtain ⟨h1, h2⟩ := untagLoop_spec data.reverse
  rw [List.reverse_reverse, List.length_reverse] at h1 h2
  have hl := untagLoop_length data.reverse (8 * data.length)
  rw [List.length_reverse] at hl
  have hle := stripTag_length (bytesToBits data)
  rw [bytesToBits_length] at hle
  unfold untag
  dsimp only
  refine ⟨⟨?_, ?_⟩, h1⟩
  · rw [List.length_take, List.length_reverse, hl, h1]; omega
  · rw [bytesToBits_take, h2, h1, List.length_take, List.length_reverse, hl, List.take_append, List.take_of_length_le (by omega),
      List.take_replicate]
    congr 2
    omega

theorem digit_ascii {c : Char} {n : Nat} (h : toDigit 16 c = some n) : c.toNat < 128 := by
  unfold V248.toDigit at h
  dsimp only at h
  by_cases h1 : '0'.toNat ≤ c.toNat ∧ c.toNat ≤ '9'.toNat
  · have := h1.2; have : '9'.toNat = 57 := rfl; omega
  · rw [if_neg h1] at h
    by_cases h2 : 'a'.toNat ≤ c.toNat ∧ c.toNat ≤ 'z'.toNat
    · have := h2.2; have : 'z'.toNat = 122 := rfl; omega
    · rw [if_neg h2] at h
      by_cases h3 : 'A'.toNat ≤ c.toNat ∧ c.toNat ≤ 'Z'.toNat
      · have := h3.2; have : 'Z'.toNat = 90 := rfl; omega
      · rw [if_neg h3] at h; cases h

theorem nibs_ascii {l : Bits} : ∀ {t : List Char}, Nibs t l → ∀ c ∈ t, c.toNat < 128 ∧ c ≠ '_' := by
  intro t
  induction t generalizing l with
  | nil => intro _ c hc; cases hc
  | cons x t ih =>
    intro h c hc
    obtain ⟨n, l', h1, h2, rfl⟩ := nibs_cons h
    rcases List.mem_cons.1 hc with e | hc
    · subst e
      refine ⟨digit_ascii h1, ?_⟩
      rintro rfl
      have : toDigit 16 '_' = none := by decide
      rw [this] at h1; cases h1
    · exact ih h2 c hc

/-- Splitting off a half digit and decoding the rest gives the digits' bits. -/
theorem body_spec {s : List Char} {l : Bits} (h : Nibs s l) : ∃ half s' data, splitHalf s = some (half, s') ∧ decodeHex s' = some data ∧
    (assemble half data).2 = l.length ∧ Packs (assemble half data).1 l := by
  have hl := nibs_len h
  unfold splitHalf
  by_cases ho : s.length % 2 ≠ 0
  · rw [if_pos ho]
    have hne : s ≠ [] := by rintro rfl; simp at ho
    obtain ⟨s', c, rfl⟩ : ∃ s' c, s = s' ++ [c] := ⟨s.dropLast, s.getLast hne, (List.dropLast_concat_getLast hne).symm⟩
    rw [List.getLast?_concat, List.dropLast_concat]
    obtain ⟨ds, h1, h2⟩ := h
    have : ∃ l1 n, Nibs s' l1 ∧ toDigit 16 c = some n := by
      clear h2 hl ho hne
      induction s' generalizing ds with
      | nil =>
        obtain ⟨n, l', a, b, _⟩ := nibs_cons (t := []) (c := c) ⟨ds, h1, rfl⟩
        exact ⟨[], n, nibs_nil, a⟩
      | cons x s' ih =>
        obtain ⟨n, l', a, ⟨ds', b, _⟩, _⟩ := nibs_cons (t := s' ++ [c]) (c := x) ⟨ds, h1, rfl⟩
        obtain ⟨l1, m, c1, c2⟩ := ih ds' b
        exact ⟨_, m, nibs_append (nibs_single a) c1, c2⟩
    obtain ⟨l1, n, hs', hc⟩ := this
    have e := nibs_unique ⟨ds, h1, h2⟩ (nibs_append hs' (nibs_single hc))
    obtain ⟨bs, d1, d2⟩ := nibs_decode _ (Nat.le_refl _) (by simp at ho; omega) hs'
    refine ⟨some n, s', bs, ?_, d1, ?_, ?_⟩
    · dsimp only; rw [hc]
    · have := congrArg List.length d2
      rw [bytesToBits_length] at this
      rw [e]; simp [assemble, this]
    · subst e
      have hb := congrArg List.length d2
      rw [bytesToBits_length] at hb
      unfold assemble
      dsimp only
      refine ⟨?_, ?_⟩
      · simp; omega
      · rw [bytesToBits_append, d2, bytesToBits_singleton, half_byte (V248.toDigit_lt hc), List.append_assoc]
        congr 3
        simp; omega
  · rw [if_neg ho]
    obtain ⟨bs, d1, d2⟩ := nibs_decode _ (Nat.le_refl _) (by omega) h
    have hb := congrArg List.length d2
    rw [bytesToBits_length] at hb
    refine ⟨none, s, bs, rfl, d1, ?_, ?_⟩
    · simp [assemble, hb]
    · unfold assemble
      refine ⟨?_, ?_⟩
      · dsimp only; omega
      · dsimp only; rw [d2, hb]; simp

theorem body_inv {s : List Char} {half : Option Nat} {s' : List Char} {data : List Byte} (h1 : splitHalf s = some (half, s'))
    (h2 : decodeHex s' = some data) : ∃ l, Nibs s l := by
  have hn := decode_nibs h2
  unfold splitHalf at h1
  by_cases ho : s.length % 2 ≠ 0
  · rw [if_pos ho] at h1
    have hne : s ≠ [] := by rintro rfl; simp at ho
    obtain ⟨s'', c, rfl⟩ : ∃ s' c, s = s' ++ [c] := ⟨s.dropLast, s.getLast hne, (List.dropLast_concat_getLast hne).symm⟩
    rw [List.getLast?_concat, List.dropLast_concat] at h1
    dsimp only at h1
    cases hc : toDigit 16 c with
    | none => rw [hc] at h1; cases h1
    | some n =>
      rw [hc] at h1
      injection h1 with h1
      injection h1 with h1 h1'
      subst h1'
      exact ⟨_, nibs_append hn (nibs_single hc)⟩
  · rw [if_neg ho] at h1
    injection h1 with h1
    injection h1 with h1 h1'
    subst h1'
    exact ⟨_, hn⟩

/-- C49: parsing accepts exactly texts of at most 256 characters that are hexadecimal digits, possibly followed by an
underscore, and returns the bits of the digits — without the completion tag if there is an underscore. -/
theorem C49_parse (t : List Char) (d : List Byte) (n : Nat) : fromHexStr t = some (d, n) ↔
    t.length ≤ 256 ∧ ∃ body l, Nibs body l ∧
      (t = body ∧ Packs d l ∧ n = l.length ∨ t = body ++ ['_'] ∧ Packs d (stripTag l) ∧ n = (stripTag l).length) := by
  have fwd : ∀ {body : List Char} {l : Bits}, Nibs body l → (body.length ≤ 256 → ∃ r, fromHexStr body = some (r, l.length) ∧ Packs r l) ∧
      (body.length + 1 ≤ 256 → ∃ r, fromHexStr (body ++ ['_']) = some (r, (stripTag l).length) ∧ Packs r (stripTag l)) := by
    intro body l hb
    obtain ⟨half, s', data, e1, e2, e3, e4⟩ := body_spec hb
    have ha := nibs_ascii hb
    constructor
    · intro hl
      have hall : body.all (fun c => decide (c.toNat < 128)) = true := by
        rw [List.all_eq_true]; exact fun c hc => decide_eq_true (ha c hc).1
      have hst : splitTag body = (body, false) := by
        unfold splitTag
        rw [if_neg]
        intro e
        exact (ha _ (List.mem_of_getLast? e)).2 rfl
      refine ⟨(assemble half data).1, ?_, e4⟩
      unfold fromHexStr
      rw [if_neg (by rw [hall]; simp; exact hl), hst]
      dsimp only
      rw [e1]
      dsimp only
      rw [e2]
      dsimp only
      rw [if_neg (by decide), ← e3]
    · intro hl
      have hall : (body ++ ['_']).all (fun c => decide (c.toNat < 128)) = true := by
        rw [List.all_eq_true]
        intro c hc
        rcases List.mem_append.1 hc with hc | hc
        · exact decide_eq_true (ha c hc).1
        · rw [List.mem_singleton] at hc; subst hc; decide
      have hst : splitTag (body ++ ['_']) = (body, true) := by
        unfold splitTag
        rw [List.getLast?_concat, if_pos rfl, List.dropLast_concat]
      obtain ⟨u1, u2⟩ := untag_spec (assemble half data).1
      rw [e4.2, stripTag_zeros] at u1 u2
      refine ⟨(untag (assemble half data).1).1, ?_, u1⟩
      unfold fromHexStr
      rw [if_neg (by rw [hall]; simp; omega), hst]
      dsimp only
      rw [e1]
      dsimp only
      rw [e2]
      dsimp only
      rw [if_pos rfl, ← u2]
  constructor
  · intro h
    have hcase : ∃ body, (t = body ∧ splitTag t = (body, false) ∨ t = body ++ ['_'] ∧ splitTag t = (body, true)) := by
      unfold splitTag
      by_cases hu : t.getLast? = some '_'
      · rw [if_pos hu]
        refine ⟨t.dropLast, Or.inr ⟨?_, rfl⟩⟩
        obtain ⟨ys, rfl⟩ := List.getLast?_eq_some_iff.1 hu
        rw [List.dropLast_concat]
      · rw [if_neg hu]; exact ⟨t, Or.inl ⟨rfl, rfl⟩⟩
    have hl : t.length ≤ 256 := by
      unfold fromHexStr at h
      by_cases hc : t.all (fun c => decide (c.toNat < 128)) = false ∨ 256 < t.length
      · rw [if_pos hc] at h; cases h
      · have : ¬ 256 < t.length := fun e => hc (Or.inr e)
        omega
    obtain ⟨body, hc⟩ := hcase
    have hn : ∃ l, Nibs body l := by
      have hf : (splitTag t).1 = body := by rcases hc with hc | hc <;> rw [hc.2]
      unfold fromHexStr at h
      by_cases hc' : t.all (fun c => decide (c.toNat < 128)) = false ∨ 256 < t.length
      · rw [if_pos hc'] at h; cases h
      · rw [if_neg hc', hf] at h
        cases h1 : splitHalf body with
        | none => rw [h1] at h; cases h
        | some x =>
          obtain ⟨half, s'⟩ := x
          rw [h1] at h
          dsimp only at h
          cases h2 : decodeHex s' with
          | none => rw [h2] at h; cases h
          | some data => exact body_inv h1 h2
    obtain ⟨l, hn⟩ := hn
    refine ⟨hl, body, l, hn, ?_⟩
    rcases hc with ⟨e, _⟩ | ⟨e, _⟩
    · left
      subst e
      obtain ⟨r, f1, f2⟩ := (fwd hn).1 hl
      rw [f1] at h
      injection h with h
      injection h with h h'
      subst h; exact ⟨rfl, f2, h'.symm⟩
    · right
      subst e
      obtain ⟨r, f1, f2⟩ := (fwd hn).2 (by simp at hl; omega)
      rw [f1] at h
      injection h with h
      injection h with h h'
      subst h; exact ⟨rfl, f2, h'.symm⟩
  · rintro ⟨hl, body, l, hb, ⟨rfl, h2, h3⟩ | ⟨rfl, h2, h3⟩⟩
    · obtain ⟨r, f1, f2⟩ := (fwd hb).1 hl
      rw [f1, h3, h2.unique f2]
    · obtain ⟨r, f1, f2⟩ := (fwd hb).2 (by simp at hl; omega)
      rw [f1, h3, h2.unique f2]

/-- The last byte as shown. -/
theorem last_byte (b : Byte) {rem : Nat} (h0 : rem ≠ 0) (h : rem < 8) :
    wordBits ((b &&& ~~~ ((1#8 <<< (7 - rem)) - 1)) ||| (1#8 <<< (7 - rem))) = (wordBits b).take rem ++ true :: List.replicate (7 - rem) false := by
  have : ∀ (n : Fin 256) (rem : Fin 8), rem.val ≠ 0 → wordBits ((BitVec.ofNat 8 n &&& ~~~ ((1#8 <<< (7 - rem.val)) - 1)) ||| (1#8 <<< (7 - rem.val))) =
    (wordBits (BitVec.ofNat 8 n)).take rem.val ++ true :: List.replicate (7 - rem.val) false := by decide +kernel
  have := this ⟨b.toNat, b.isLt⟩ ⟨rem, h⟩ h0
  simpa using this

theorem hi_nibble (table : List Char) (ht : table = hexLower ∨ table = hexUpper) (x : Byte) :
    Nibs [table.getD (x >>> 4).toNat '?'] ((wordBits x).take 4) := by
  have : ∀ n : Fin 256, toDigit 16 (hexLower.getD (BitVec.ofNat 8 n >>> 4).toNat '?') = some ((BitVec.ofNat 8 n).toNat / 16) ∧
      toDigit 16 (hexUpper.getD (BitVec.ofNat 8 n >>> 4).toNat '?') = some ((BitVec.ofNat 8 n).toNat / 16) := by decide +kernel
  have := this ⟨x.toNat, x.isLt⟩
  simp only [BitVec.ofNat_toNat, BitVec.setWidth_eq] at this
  rw [← byte_nibs, List.take_left' (by simp)]
  rcases ht with rfl | rfl
  · exact nibs_single this.1
  · exact nibs_single this.2

theorem encodeHex_nibs (table : List Char) (ht : table = hexLower ∨ table = hexUpper) (bs : List Byte) :
    Nibs (encodeHex table bs) (bytesToBits bs) := by
  rcases ht with rfl | rfl
  · exact nibs_hexOf (encodeHex_hexOf bs).1
  · exact nibs_hexOf (encodeHex_hexOf bs).2

/-- C49: the text of a bit string: the digits of the bits if their number is a multiple of four, otherwise the digits of
the bits, a one and zeros up to a multiple of four, and an underscore. Bytes or bits behind the bit string have no
influence. -/
theorem C49_format (table : List Char) (ht : table = hexLower ∨ table = hexUpper) {bytes : List Byte} {p : Bits}
    (h : p <+: bytesToBits bytes) : ∃ body,
    (p.length % 4 = 0 → fmtHex table bytes p.length = body ∧ Nibs body p) ∧
    (p.length % 4 ≠ 0 → fmtHex table bytes p.length = body ++ ['_'] ∧
      Nibs body (p ++ true :: List.replicate (3 - p.length % 4) false)) := by
  obtain ⟨tl, htl⟩ := h
  have hlen : p.length ≤ 8 * bytes.length := by
    have := congrArg List.length htl
    simp at this; omega
  have hp : (bytesToBits bytes).take p.length = p := by rw [← htl, List.take_left]
  unfold fmtHex
  dsimp only
  rw [Nat.min_eq_left hlen]
  by_cases hr : p.length % 8 = 0
  · have e : (match (bytes.take ((p.length + 7) / 8)).getLast? with
      | some last => if p.length % 8 ≠ 0 then
          encodeHex table (bytes.take ((p.length + 7) / 8)).dropLast ++ (if 4 < p.length % 8 then byteHex table ((last &&& ~~~ ((1#8 <<< (7 - p.length % 8)) - 1)) ||| (1#8 <<< (7 - p.length % 8))) else [table.getD (((last &&& ~~~ ((1#8 <<< (7 - p.length % 8)) - 1)) ||| (1#8 <<< (7 - p.length % 8))) >>> 4).toNat '?']) ++
          (if p.length % 8 ≠ 4 then ['_'] else [])
          else encodeHex table (bytes.take ((p.length + 7) / 8))
      | none => encodeHex table (bytes.take ((p.length + 7) / 8))) = encodeHex table (bytes.take ((p.length + 7) / 8)) := by
      split
      · rw [if_neg (by omega)]
      · rfl
    rw [e]
    refine ⟨_, fun _ => ⟨rfl, ?_⟩, fun h => absurd (by omega) h⟩
    have := encodeHex_nibs table ht (bytes.take ((p.length + 7) / 8))
    rw [bytesToBits_take, show 8 * ((p.length + 7) / 8) = p.length by omega, hp] at this
    exact this
  · have hk : p.length / 8 < bytes.length := by omega
    have ebs : bytes.take ((p.length + 7) / 8) = bytes.take (p.length / 8) ++ [bytes[p.length / 8]] := by
      rw [show (p.length + 7) / 8 = p.length / 8 + 1 by omega, List.take_succ_eq_append_getElem hk]
    rw [ebs, List.getLast?_concat, List.dropLast_concat]
    dsimp only
    rw [if_pos hr]
    have ep : p = bytesToBits (bytes.take (p.length / 8)) ++ (wordBits bytes[p.length / 8]).take (p.length % 8) := by
      have h1 : (bytesToBits (bytes.take ((p.length + 7) / 8))).take p.length = p := by
        rw [bytesToBits_take, List.take_take, Nat.min_eq_left (by omega), hp]
      rw [ebs, bytesToBits_append, bytesToBits_singleton, List.take_append, List.take_of_length_le (by simp; omega), bytesToBits_length,
        List.length_take, Nat.min_eq_left (by omega), show p.length - 8 * (p.length / 8) = p.length % 8 by omega] at h1
      exact h1.symm
    have hlast := last_byte bytes[p.length / 8] hr (by omega)
    generalize (bytes[p.length / 8] &&& ~~~ ((1#8 <<< (7 - p.length % 8)) - 1)) ||| (1#8 <<< (7 - p.length % 8)) = x at hlast ⊢
    have hfull := encodeHex_nibs table ht (bytes.take (p.length / 8))
    have hx : Nibs (byteHex table x) (wordBits x) := by
      have := encodeHex_nibs table ht [x]
      rw [bytesToBits_singleton] at this
      simpa [encodeHex] using this
    have hhi := hi_nibble table ht x
    have htk : ((wordBits bytes[p.length / 8]).take (p.length % 8)).length = p.length % 8 := by simp; omega
    by_cases h4 : p.length % 8 = 4
    · rw [if_neg (by omega), if_neg (by omega), List.append_nil]
      refine ⟨_, fun _ => ⟨rfl, ?_⟩, fun h => absurd (by omega) h⟩
      have := nibs_append hfull hhi
      rw [hlast, List.take_left' (by omega), ← ep] at this
      exact this
    · rw [if_pos h4]
      refine ⟨_, fun h => absurd h (by omega), fun _ => ⟨rfl, ?_⟩⟩
      by_cases h5 : 4 < p.length % 8
      · rw [if_pos h5]
        have := nibs_append hfull hx
        rw [hlast, ← List.append_assoc, ← ep, show 7 - p.length % 8 = 3 - p.length % 4 by omega] at this
        exact this
      · rw [if_neg h5]
        have := nibs_append hfull hhi
        rw [hlast, List.take_append, List.take_of_length_le (l := List.take (p.length % 8) _) (by omega), htk, ← List.append_assoc, ← ep] at this
        have e2 : (true :: List.replicate (7 - p.length % 8) false).take (4 - p.length % 8) = true :: List.replicate (3 - p.length % 4) false := by
          rw [show 4 - p.length % 8 = (3 - p.length % 8) + 1 by omega, List.take_succ_cons, List.take_replicate,
            Nat.min_eq_left (by omega), show 3 - p.length % 8 = 3 - p.length % 4 by omega]
        rw [e2] at this
        exact this

/-- C49 (partial: the property asks for all bit strings up to 1023 bits): the text of a bit string is parsed back, exactly
up to 1020 bits; the texts of 1021, 1022 and 1023 bits are refused. -/
theorem C49_round_partial (table : List Char) (ht : table = hexLower ∨ table = hexUpper) {bytes : List Byte} {p : Bits}
    (h : p <+: bytesToBits bytes) (hl : p.length ≤ 1023) :
    (p.length ≤ 1020 → ∃ d, fromHexStr (fmtHex table bytes p.length) = some (d, p.length) ∧ Packs d p) ∧
    (1020 < p.length → fromHexStr (fmtHex table bytes p.length) = none) := by
  obtain ⟨body, f1, f2⟩ := C49_format table ht h
  have hpack : ∀ l : Bits, ∃ d, Packs d l := by
    intro l
    refine ⟨Rd.bytesOf ((l.length + 7) / 8) (l ++ List.replicate (8 * ((l.length + 7) / 8) - l.length) false), ?_, ?_⟩
    · simp [Rd.bytesOf]
    · have hlen : (Rd.bytesOf ((l.length + 7) / 8) (l ++ List.replicate (8 * ((l.length + 7) / 8) - l.length) false)).length = (l.length + 7) / 8 := by
        simp [Rd.bytesOf]
      rw [hlen, Rd.bytesToBits_bytesOf (by simp; omega)]
  obtain ⟨d, hd⟩ := hpack p
  by_cases h4 : p.length % 4 = 0
  · obtain ⟨e, hn⟩ := f1 h4
    have hlen := nibs_len hn
    rw [e]
    refine ⟨fun hs => ⟨d, ?_, hd⟩, fun hs => ?_⟩
    · rw [C49_parse]
      exact ⟨by omega, body, p, hn, Or.inl ⟨rfl, hd, rfl⟩⟩
    · exfalso; omega
  · obtain ⟨e, hn⟩ := f2 h4
    have hlen := nibs_len hn
    simp only [List.length_append, List.length_cons, List.length_replicate] at hlen
    rw [e]
    refine ⟨fun hs => ⟨d, ?_, hd⟩, fun hs => ?_⟩
    · have est : stripTag (p ++ true :: List.replicate (3 - p.length % 4) false) = p := by
        have : p ++ true :: List.replicate (3 - p.length % 4) false = (p ++ [true]) ++ List.replicate (3 - p.length % 4) false := by
          simp
        rw [this, stripTag_zeros, stripTag_tag]
      rw [C49_parse]
      refine ⟨by simp; omega, body, _, hn, Or.inr ⟨rfl, ?_, ?_⟩⟩
      · rw [est]; exact hd
      · rw [est]
    · cases hf : fromHexStr (body ++ ['_']) with
      | none => rfl
      | some r =>
        obtain ⟨d', n'⟩ := r
        have := ((C49_parse _ _ _).1 hf).1
        simp at this; omega

/-- C49, violated: the text of 1023 zero bits, which fit into a cell, is refused. -/
theorem C49_long_wrong : fromHexStr (fmtHex hexLower (List.replicate 128 0) 1023) = none ∧
    fromHexStr (fmtHex hexLower (List.replicate 128 0) 1020) = some (List.replicate 128 0, 1020) := by
  refine ⟨by decide +kernel, by decide +kernel⟩

example : fmtHex hexLower [0xde, 0xc0] 11 = ['d', 'e', 'd', '_'] := by decide
example : fromHexStr ['d', 'e', 'd', '_'] = some ([0xde, 0xc0], 11) := by decide
example : List.take 11 (bytesToBits [0xde, 0xc0]) <+: bytesToBits [0xde, 0xc0] := List.take_prefix _ _

end Bitstring
end Verif
