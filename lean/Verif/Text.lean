import Verif.Shard
import Verif.V248Text
/-
Texts: hexadecimal, base64 and decimal notation, splitting at a separator.
A text is a list of characters. The functions of the standard library and of the crates `hex` and `base64` are modelled
by their documented behaviour (they are not part of the repository); which error they return is not modelled.
-/
set_option linter.unusedVariables false
set_option linter.unusedSimpArgs false
namespace Verif
namespace Text

open V248 (toDigit digitsOf numOf)

/-! ### Hexadecimal -/

/-- `util.rs:548` `HEX_CHARS_LOWER` -/
def hexLower : List Char := ['0','1','2','3','4','5','6','7','8','9','a','b','c','d','e','f']
/-- `util.rs:549` `HEX_CHARS_UPPER` -/
def hexUpper : List Char := ['0','1','2','3','4','5','6','7','8','9','A','B','C','D','E','F']

/-- `util.rs:538-546` `byte2hex` -/
def byteHex (table : List Char) (b : Byte) : List Char :=
  [table.getD ((b &&& 0xf0) >>> 4).toNat '?', table.getD (b &&& 0x0f).toNat '?']

/-- `util.rs:520-536` `encode_to_hex_slice` (the output has the right length at all its uses) -/
def encodeHex (table : List Char) (bs : List Byte) : List Char := bs.flatMap (byteHex table)

/-- `hex::decode` -/
def decodeHex : List Char → Option (List Byte)
  | [] => some []
  | [_] => none
  | a :: b :: t =>
    match toDigit 16 a, toDigit 16 b, decodeHex t with
    | some x, some y, some r => some (BitVec.ofNat 8 (16 * x + y) :: r)
    | _, _, _ => none

/-- `hex::decode_to_slice` into a slice of `n` bytes. The crate compares the length in bytes; a text with a character
of more than one byte is refused in any case. -/
def decodeToSlice (n : Nat) (t : List Char) : Option (List Byte) :=
  if t.length = 2 * n then decodeHex t else none

/-- The texts that denote the bytes: two digits per byte, in either case. -/
def HexOf : List Char → List Byte → Prop
  | [], [] => True
  | a :: b :: t, x :: r => toDigit 16 a = some (x.toNat / 16) ∧ toDigit 16 b = some (x.toNat % 16) ∧ HexOf t r
  | _, _ => False

theorem byteHex_digits (b : Byte) : ∃ c d c' d', byteHex hexLower b = [c, d] ∧ byteHex hexUpper b = [c', d'] ∧
    toDigit 16 c = some (b.toNat / 16) ∧ toDigit 16 d = some (b.toNat % 16) ∧
    toDigit 16 c' = some (b.toNat / 16) ∧ toDigit 16 d' = some (b.toNat % 16) := by
  refine ⟨_, _, _, _, rfl, rfl, ?_⟩
  have h : ∀ n : Fin 256, toDigit 16 (hexLower.getD ((BitVec.ofNat 8 n &&& 0xf0) >>> 4).toNat '?') = some ((BitVec.ofNat 8 n).toNat / 16) ∧
      toDigit 16 (hexLower.getD (BitVec.ofNat 8 n &&& 0x0f).toNat '?') = some ((BitVec.ofNat 8 n).toNat % 16) ∧
      toDigit 16 (hexUpper.getD ((BitVec.ofNat 8 n &&& 0xf0) >>> 4).toNat '?') = some ((BitVec.ofNat 8 n).toNat / 16) ∧
      toDigit 16 (hexUpper.getD (BitVec.ofNat 8 n &&& 0x0f).toNat '?') = some ((BitVec.ofNat 8 n).toNat % 16) := by
    decide +kernel
  have := h ⟨b.toNat, b.isLt⟩
  simpa using this

theorem encodeHex_hexOf (bs : List Byte) : HexOf (encodeHex hexLower bs) bs ∧ HexOf (encodeHex hexUpper bs) bs := by
  induction bs with
  | nil => exact ⟨trivial, trivial⟩
  | cons b t ih =>
    obtain ⟨c, d, c', d', e1, e2, h1, h2, h3, h4⟩ := byteHex_digits b
    unfold encodeHex at ih ⊢
    rw [List.flatMap_cons, List.flatMap_cons, e1, e2]
    exact ⟨⟨h1, h2, ih.1⟩, ⟨h3, h4, ih.2⟩⟩

@[simp] theorem encodeHex_length (table : List Char) (bs : List Byte) : (encodeHex table bs).length = 2 * bs.length := by
  unfold encodeHex
  induction bs with
  | nil => rfl
  | cons b t ih => rw [List.flatMap_cons, List.length_append, ih]; simp [byteHex]; omega

theorem decodeHex_iff : ∀ (n : Nat) (t : List Char) (bs : List Byte), t.length ≤ n → (decodeHex t = some bs ↔ HexOf t bs)
  | n, [], bs, _ => by
    cases bs with
    | nil => simp [decodeHex, HexOf]
    | cons b r => simp [decodeHex, HexOf]
  | n, [c], bs, _ => by cases bs <;> simp [decodeHex, HexOf]
  | 0, a :: b :: t, bs, h => by simp at h
  | n + 1, a :: b :: t, bs, h => by
    have ih := fun r => decodeHex_iff n t r (by simp at h; omega)
    unfold decodeHex
    cases ha : toDigit 16 a with
    | none => cases bs <;> simp [HexOf, ha]
    | some x =>
      cases hb : toDigit 16 b with
      | none => cases bs <;> simp [HexOf, hb]
      | some y =>
        have hx := V248.toDigit_lt ha
        have hy := V248.toDigit_lt hb
        cases ht : decodeHex t with
        | none =>
          cases bs with
          | nil => simp [HexOf]
          | cons z r =>
            simp only [HexOf, ← ih, ht]
            simp
        | some r =>
          cases bs with
          | nil => simp [HexOf]
          | cons z s =>
            simp only [HexOf, ← ih, ht, ha, hb, Option.some.injEq, List.cons.injEq]
            constructor
            · rintro ⟨rfl, rfl⟩
              simp only [BitVec.toNat_ofNat]
              refine ⟨?_, ?_, trivial⟩ <;> omega
            · rintro ⟨h1, h2, h3⟩
              refine ⟨?_, h3⟩
              apply BitVec.eq_of_toNat_eq
              rw [BitVec.toNat_ofNat]
              have := z.isLt
              omega

/-- `hex::decode` inverts the notation in either case, and accepts nothing else. -/
theorem decodeHex_spec (t : List Char) (bs : List Byte) : decodeHex t = some bs ↔ HexOf t bs := decodeHex_iff _ t bs (Nat.le_refl _)

theorem HexOf.length : ∀ {t : List Char} {bs : List Byte}, HexOf t bs → t.length = 2 * bs.length
  | [], [], _ => rfl
  | a :: b :: t, x :: r, h => by have := h.2.2.length; simp; omega
  | [_], [], h => h.elim
  | [_], _ :: _, h => h.elim
  | [], _ :: _, h => h.elim
  | _ :: _ :: _, [], h => h.elim

theorem HexOf.unique {t : List Char} {a b : List Byte} (h : HexOf t a) (h' : HexOf t b) : a = b := by
  rw [← decodeHex_spec] at h h'
  rw [h] at h'; injection h'

theorem decodeToSlice_spec (n : Nat) (t : List Char) (bs : List Byte) :
    decodeToSlice n t = some bs ↔ HexOf t bs ∧ bs.length = n := by
  unfold decodeToSlice
  split
  · rename_i h
    rw [decodeHex_spec]
    constructor
    · intro h'; refine ⟨h', ?_⟩; have := h'.length; omega
    · exact fun h => h.1
  · rename_i h
    constructor
    · intro h'; cases h'
    · rintro ⟨h1, h2⟩
      have := h1.length
      omega

theorem HexOf.noSep : ∀ {t : List Char} {bs : List Byte}, HexOf t bs → ':' ∉ t
  | [], [], _ => by simp
  | a :: b :: t, x :: r, h => by
    have h1 : toDigit 16 ':' = none := by decide
    have := h.2.2.noSep
    intro hm
    rcases List.mem_cons.1 hm with e | hm
    · rw [← e] at h; rw [h.1] at h1; cases h1
    · rcases List.mem_cons.1 hm with e | hm
      · rw [← e] at h; rw [h.2.1] at h1; cases h1
      · exact this hm
  | [_], [], h => h.elim
  | [_], _ :: _, h => h.elim
  | [], _ :: _, h => h.elim
  | _ :: _ :: _, [], h => h.elim

/-! ### Base64 -/

def b64std : List Char := "ABCDEFGHIJKLMNOPQRSTUVWXYZabcdefghijklmnopqrstuvwxyz0123456789+/".toList
def b64url : List Char := "ABCDEFGHIJKLMNOPQRSTUVWXYZabcdefghijklmnopqrstuvwxyz0123456789-_".toList

/-- `base64` `Engine::encode` with padding (`STANDARD`, `URL_SAFE`, according to the alphabet) -/
def b64Encode (abc : List Char) : List Byte → List Char
  | [] => []
  | [a] =>
    let n := a.toNat * 65536
    [abc.getD (n / 262144) '?', abc.getD (n / 4096 % 64) '?', '=', '=']
  | [a, b] =>
    let n := a.toNat * 65536 + b.toNat * 256
    [abc.getD (n / 262144) '?', abc.getD (n / 4096 % 64) '?', abc.getD (n / 64 % 64) '?', '=']
  | a :: b :: c :: t =>
    let n := a.toNat * 65536 + b.toNat * 256 + c.toNat
    abc.getD (n / 262144) '?' :: abc.getD (n / 4096 % 64) '?' :: abc.getD (n / 64 % 64) '?' :: abc.getD (n % 64) '?' :: b64Encode abc t

/-- The value of a character of the alphabet. -/
def b64Val (abc : List Char) (c : Char) : Option Nat := if c ∈ abc then some (abc.idxOf c) else none

/-- The last group of a text. Padding must be canonical and the unused bits zero (the configuration of `STANDARD` and
`URL_SAFE`). -/
def b64Last (abc : List Char) (a b c d : Char) : Option (List Byte) :=
  if d = '=' then
    if c = '=' then
      match b64Val abc a, b64Val abc b with
      | some x, some y => if y % 16 = 0 then some [BitVec.ofNat 8 (x * 4 + y / 16)] else none
      | _, _ => none
    else
      match b64Val abc a, b64Val abc b, b64Val abc c with
      | some x, some y, some z =>
        if z % 4 = 0 then
          some [BitVec.ofNat 8 ((x * 262144 + y * 4096 + z * 64) / 65536), BitVec.ofNat 8 ((x * 262144 + y * 4096 + z * 64) / 256)]
        else none
      | _, _, _ => none
  else none

/-- `base64` `Engine::decode` -/
def b64Decode (abc : List Char) : List Char → Option (List Byte)
  | [] => some []
  | a :: b :: c :: d :: t =>
    match b64Val abc a, b64Val abc b, b64Val abc c, b64Val abc d, b64Decode abc t with
    | some x, some y, some z, some w, some r =>
      let n := x * 262144 + y * 4096 + z * 64 + w
      some (BitVec.ofNat 8 (n / 65536) :: BitVec.ofNat 8 (n / 256) :: BitVec.ofNat 8 n :: r)
    | _, _, _, _, _ => if t = [] then b64Last abc a b c d else none
  | _ => none

/-- An alphabet of 64 different characters without the padding character. -/
def IsAbc (abc : List Char) : Prop := abc.length = 64 ∧ abc.Nodup ∧ '=' ∉ abc

theorem isAbc_std : IsAbc b64std := ⟨by decide, by decide, by decide⟩
theorem isAbc_url : IsAbc b64url := ⟨by decide, by decide, by decide⟩

theorem b64Val_getD {abc : List Char} (h : IsAbc abc) {n : Nat} (hn : n < 64) : b64Val abc (abc.getD n '?') = some n := by
  have hl : n < abc.length := by rw [h.1]; exact hn
  have e : abc.getD n '?' = abc[n] := by rw [List.getD_eq_getElem?_getD, List.getElem?_eq_getElem hl]; rfl
  unfold b64Val
  rw [e, if_pos (List.getElem_mem hl)]
  rw [h.2.1.idxOf_getElem]

theorem b64Val_some {abc : List Char} (h : IsAbc abc) {c : Char} {n : Nat} (hv : b64Val abc c = some n) :
    n < 64 ∧ abc.getD n '?' = c := by
  unfold b64Val at hv
  by_cases hm : c ∈ abc
  · rw [if_pos hm] at hv
    injection hv with hv
    have hl := List.idxOf_lt_length_of_mem hm
    subst hv
    refine ⟨by rw [← h.1]; exact hl, ?_⟩
    rw [List.getD_eq_getElem?_getD, List.getElem?_eq_getElem hl]
    simp
  · rw [if_neg hm] at hv; cases hv

theorem b64Val_pad {abc : List Char} (h : IsAbc abc) : b64Val abc '=' = none := by
  unfold b64Val; rw [if_neg h.2.2]

theorem ofNat_eq {n : Nat} {x : Byte} (h : n % 256 = x.toNat) : BitVec.ofNat 8 n = x := by
  apply BitVec.eq_of_toNat_eq; rw [BitVec.toNat_ofNat]; exact h

theorem getD_ne_pad {abc : List Char} (h : IsAbc abc) {n : Nat} (hn : n < 64) : abc.getD n '?' ≠ '=' := by
  intro e
  have := b64Val_getD h hn
  rw [e, b64Val_pad h] at this; cases this

theorem b64_roundtrip {abc : List Char} (h : IsAbc abc) : ∀ bs, b64Decode abc (b64Encode abc bs) = some bs
  | [] => rfl
  | [a] => by
    have ha := a.isLt
    unfold b64Encode b64Decode
    dsimp only
    simp only [b64Val_pad h, if_true]
    have : b64Last abc (abc.getD (a.toNat * 65536 / 262144) '?') (abc.getD (a.toNat * 65536 / 4096 % 64) '?') '=' '=' = some [a] := by
      unfold b64Last
      rw [if_pos rfl, if_pos rfl, b64Val_getD h (by omega), b64Val_getD h (by omega)]
      dsimp only
      rw [if_pos (by omega), ofNat_eq (x := a) (by omega)]
    split
    · rename_i hw hl; cases hw
    · exact this
  | [a, b] => by
    have ha := a.isLt
    have hb := b.isLt
    unfold b64Encode b64Decode
    dsimp only
    simp only [b64Val_pad h, if_true]
    have : b64Last abc (abc.getD ((a.toNat * 65536 + b.toNat * 256) / 262144) '?') (abc.getD ((a.toNat * 65536 + b.toNat * 256) / 4096 % 64) '?')
        (abc.getD ((a.toNat * 65536 + b.toNat * 256) / 64 % 64) '?') '=' = some [a, b] := by
      unfold b64Last
      rw [if_pos rfl, if_neg (getD_ne_pad h (by omega)), b64Val_getD h (by omega), b64Val_getD h (by omega), b64Val_getD h (by omega)]
      dsimp only
      rw [if_pos (by omega), ofNat_eq (x := a) (by omega), ofNat_eq (x := b) (by omega)]
    split
    · rename_i hw hl; cases hw
    · exact this
  | a :: b :: c :: t => by
    have ha := a.isLt
    have hb := b.isLt
    have hc := c.isLt
    have ih := b64_roundtrip h t
    unfold b64Encode b64Decode
    dsimp only
    rw [b64Val_getD h (by omega), b64Val_getD h (by omega), b64Val_getD h (by omega), b64Val_getD h (by omega), ih]
    dsimp only
    rw [ofNat_eq (x := a) (by omega), ofNat_eq (x := b) (by omega), ofNat_eq (x := c) (by omega)]

theorem b64Last_canon {abc : List Char} (h : IsAbc abc) {a b c d : Char} {bs : List Byte} (hd : b64Last abc a b c d = some bs) :
    b64Encode abc bs = [a, b, c, d] ∧ bs.length < 3 := by
  unfold b64Last at hd
  by_cases e1 : d = '='
  · rw [if_pos e1] at hd
    subst e1
    by_cases e2 : c = '='
    · rw [if_pos e2] at hd
      subst e2
      cases ha : b64Val abc a with
      | none => rw [ha] at hd; cases hd
      | some x =>
        cases hb : b64Val abc b with
        | none => rw [ha, hb] at hd; cases hd
        | some y =>
          rw [ha, hb] at hd
          dsimp only at hd
          obtain ⟨hx, ex⟩ := b64Val_some h ha
          obtain ⟨hy, ey⟩ := b64Val_some h hb
          by_cases hz : y % 16 = 0
          · rw [if_pos hz] at hd
            injection hd with hd
            subst hd
            refine ⟨?_, by simp⟩
            unfold b64Encode
            simp only [BitVec.toNat_ofNat]
            rw [show (x * 4 + y / 16) % 2 ^ 8 * 65536 / 262144 = x by omega,
              show (x * 4 + y / 16) % 2 ^ 8 * 65536 / 4096 % 64 = y by omega, ex, ey]
          · rw [if_neg hz] at hd; cases hd
    · rw [if_neg e2] at hd
      cases ha : b64Val abc a with
      | none => rw [ha] at hd; cases hd
      | some x =>
        cases hb : b64Val abc b with
        | none => rw [ha, hb] at hd; cases hd
        | some y =>
          cases hc : b64Val abc c with
          | none => rw [ha, hb, hc] at hd; cases hd
          | some z =>
            rw [ha, hb, hc] at hd
            dsimp only at hd
            obtain ⟨hx, ex⟩ := b64Val_some h ha
            obtain ⟨hy, ey⟩ := b64Val_some h hb
            obtain ⟨hz, ez⟩ := b64Val_some h hc
            by_cases hz' : z % 4 = 0
            · rw [if_pos hz'] at hd
              injection hd with hd
              subst hd
              refine ⟨?_, by simp⟩
              unfold b64Encode
              simp only [BitVec.toNat_ofNat]
              have e : (x * 262144 + y * 4096 + z * 64) / 65536 % 2 ^ 8 * 65536 + (x * 262144 + y * 4096 + z * 64) / 256 % 2 ^ 8 * 256 =
                x * 262144 + y * 4096 + z * 64 := by omega
              rw [e, show (x * 262144 + y * 4096 + z * 64) / 262144 = x by omega,
                show (x * 262144 + y * 4096 + z * 64) / 4096 % 64 = y by omega,
                show (x * 262144 + y * 4096 + z * 64) / 64 % 64 = z by omega, ex, ey, ez]
            · rw [if_neg hz'] at hd; cases hd
  · rw [if_neg e1] at hd; cases hd

/-- Only the canonical text of some bytes is decoded. -/
theorem b64_canon {abc : List Char} (h : IsAbc abc) : ∀ (n : Nat) (t : List Char) (bs : List Byte), t.length ≤ n →
    b64Decode abc t = some bs → b64Encode abc bs = t
  | n, [], bs, _, hd => by
    have hd : some [] = some bs := hd
    injection hd with hd; subst hd; rfl
  | n, [_], bs, _, hd => by cases hd
  | n, [_, _], bs, _, hd => by cases hd
  | n, [_, _, _], bs, _, hd => by cases hd
  | 0, _ :: _ :: _ :: _ :: _, _, hl, _ => by simp at hl
  | n + 1, a :: b :: c :: d :: t, bs, hl, hd => by
    have ih := fun r => b64_canon h n t r (by simp at hl; omega)
    have last : (if t = [] then b64Last abc a b c d else none) = some bs → b64Encode abc bs = a :: b :: c :: d :: t := by
      intro e
      by_cases ht : t = []
      · rw [if_pos ht] at e; subst ht; exact (b64Last_canon h e).1
      · rw [if_neg ht] at e; cases e
    unfold b64Decode at hd
    cases ha : b64Val abc a with
    | none => rw [ha] at hd; exact last hd
    | some x =>
      cases hb : b64Val abc b with
      | none => rw [ha, hb] at hd; exact last hd
      | some y =>
        cases hc : b64Val abc c with
        | none => rw [ha, hb, hc] at hd; exact last hd
        | some z =>
          cases hd' : b64Val abc d with
          | none => rw [ha, hb, hc, hd'] at hd; exact last hd
          | some w =>
            cases ht : b64Decode abc t with
            | none => rw [ha, hb, hc, hd', ht] at hd; exact last hd
            | some r =>
              rw [ha, hb, hc, hd', ht] at hd
              dsimp only at hd
              injection hd with hd
              subst hd
              obtain ⟨hx, ex⟩ := b64Val_some h ha
              obtain ⟨hy, ey⟩ := b64Val_some h hb
              obtain ⟨hz, ez⟩ := b64Val_some h hc
              obtain ⟨hw, ew⟩ := b64Val_some h hd'
              unfold b64Encode
              simp only [BitVec.toNat_ofNat]
              have e : (x * 262144 + y * 4096 + z * 64 + w) / 65536 % 2 ^ 8 * 65536 + (x * 262144 + y * 4096 + z * 64 + w) / 256 % 2 ^ 8 * 256 +
                (x * 262144 + y * 4096 + z * 64 + w) % 2 ^ 8 = x * 262144 + y * 4096 + z * 64 + w := by omega
              rw [e, show (x * 262144 + y * 4096 + z * 64 + w) / 262144 = x by omega,
                show (x * 262144 + y * 4096 + z * 64 + w) / 4096 % 64 = y by omega,
                show (x * 262144 + y * 4096 + z * 64 + w) / 64 % 64 = z by omega,
                show (x * 262144 + y * 4096 + z * 64 + w) % 64 = w by omega, ex, ey, ez, ew, ih r ht]

theorem b64_spec {abc : List Char} (h : IsAbc abc) (t : List Char) (bs : List Byte) :
    b64Decode abc t = some bs ↔ t = b64Encode abc bs :=
  ⟨fun e => (b64_canon h _ t bs (Nat.le_refl _) e).symm, fun e => e ▸ b64_roundtrip h bs⟩

theorem b64Encode_length {abc : List Char} : ∀ bs : List Byte, (b64Encode abc bs).length = (bs.length + 2) / 3 * 4
  | [] => rfl
  | [a] => by simp [b64Encode]
  | [a, b] => by simp [b64Encode]
  | a :: b :: c :: t => by
    unfold b64Encode
    have := b64Encode_length (abc := abc) t
    simp only [List.length_cons, this]; omega

/-! ### Numbers -/

/-- The decimal notation of an integer (`Display` of the signed types). -/
def showInt (w : Int) : List Char := if w < 0 then '-' :: Nat.toDigits 10 w.natAbs else Nat.toDigits 10 w.natAbs

/-- `{:016x}` for a 64-bit number: at least sixteen digits. -/
def showHex16 (n : Nat) : List Char := List.replicate (16 - (Nat.toDigits 16 n).length) '0' ++ Nat.toDigits 16 n

/-- A nonempty text of digits, as a number. -/
def parseDigits (radix : Nat) (t : List Char) : Option Nat :=
  if t = [] then none else (digitsOf radix t).map (numOf radix)

/-- An optional plus sign. -/
def stripPlus : List Char → List Char
  | '+' :: r => r
  | r => r

/-- `from_str_radix` of an unsigned type with the maximal value `max`: an optional plus sign, digits, no overflow. -/
def parseUint (radix max : Nat) (t : List Char) : Option Nat :=
  match parseDigits radix (stripPlus t) with
  | some n => if n ≤ max then some n else none
  | none => none

/-- `from_str` of a signed type with values `-half ..= half - 1`: an optional sign, decimal digits, no overflow. -/
def parseInt (half : Nat) (t : List Char) : Option Int :=
  match t with
  | '-' :: r =>
    match parseDigits 10 r with
    | some n => if n ≤ half then some (-(n : Int)) else none
    | none => none
  | t =>
    match parseUint 10 (half - 1) t with
    | some n => some (n : Int)
    | none => none

theorem toDigit16_digitChar : ∀ d, d < 16 → toDigit 16 (Nat.digitChar d) = some d := by decide

theorem digits_denote16 (n : Nat) : ∃ ds, digitsOf 16 (Nat.toDigits 16 n) = some ds ∧ numOf 16 ds = n := by
  induction n using Nat.strongRecOn with
  | _ n ih =>
    by_cases h : n < 16
    · rw [Nat.toDigits_of_lt_base h]
      refine ⟨[n], ?_, by simp [numOf]⟩
      unfold digitsOf
      rw [List.mapM_cons, toDigit16_digitChar n h]
      rfl
    · obtain ⟨ds, h1, h2⟩ := ih (n / 16) (by omega)
      rw [Nat.toDigits_of_base_le (by decide) (by omega)]
      refine ⟨ds ++ [n % 16], ?_, ?_⟩
      · apply V248.mapM_append _ _ _ h1
        rw [List.mapM_cons, toDigit16_digitChar _ (by omega)]
        rfl
      · unfold numOf at h2 ⊢
        rw [List.foldl_append, h2]
        simp only [List.foldl_cons, List.foldl_nil]
        omega

theorem toDigits_ne_nil' {b : Nat} (hb : 2 ≤ b) (n : Nat) : Nat.toDigits b n ≠ [] := by
  by_cases h : n < b
  · rw [Nat.toDigits_of_lt_base h]; simp
  · rw [Nat.toDigits_of_base_le hb (by omega)]; simp

theorem parseDigits_dec (n : Nat) : parseDigits 10 (Nat.toDigits 10 n) = some n := by
  obtain ⟨ds, h1, h2⟩ := V248.digits_denote n
  unfold parseDigits
  rw [if_neg (toDigits_ne_nil' (by decide) n), h1]
  exact congrArg some h2

theorem digitsOf_zeros (k : Nat) : digitsOf 16 (List.replicate k '0') = some (List.replicate k 0) := by
  induction k with
  | zero => rfl
  | succ k ih =>
    unfold digitsOf at ih ⊢
    rw [List.replicate_succ, List.mapM_cons, ih, show toDigit 16 '0' = some 0 by decide]
    rfl

theorem parseDigits_hex16 (n : Nat) : parseDigits 16 (showHex16 n) = some n := by
  obtain ⟨ds, h1, h2⟩ := digits_denote16 n
  unfold parseDigits showHex16
  rw [if_neg (by simp [toDigits_ne_nil' (show 2 ≤ 16 by decide)])]
  have : digitsOf 16 (List.replicate (16 - (Nat.toDigits 16 n).length) '0' ++ Nat.toDigits 16 n) =
      some (List.replicate (16 - (Nat.toDigits 16 n).length) 0 ++ ds) := V248.mapM_append _ _ _ (digitsOf_zeros _) h1
  rw [this]
  refine congrArg some ?_
  unfold numOf at h2 ⊢
  rw [List.foldl_append]
  have : ∀ k, List.foldl (fun acc d => acc * 16 + d) 0 (List.replicate k 0) = 0 := by
    intro k
    induction k with
    | zero => rfl
    | succ k ih => rw [List.replicate_succ, List.foldl_cons]; exact ih
  rw [this, h2]

/-- No digit is one of the characters that have another meaning. -/
theorem digits_not_mem {radix : Nat} {t : List Char} {n : Nat} (h : parseDigits radix t = some n) {c : Char} (hc : toDigit radix c = none) : c ∉ t := by
  unfold parseDigits at h
  by_cases h0 : t = []
  · rw [if_pos h0] at h; cases h
  · rw [if_neg h0] at h
    clear h0
    unfold digitsOf at h
    cases hm : t.mapM (toDigit radix) with
    | none => rw [hm] at h; cases h
    | some ds =>
      clear h
      induction t generalizing ds with
      | nil => simp
      | cons x r ih =>
        rw [List.mapM_cons] at hm
        cases hx : toDigit radix x with
        | none => rw [hx] at hm; cases hm
        | some v =>
          cases hr : r.mapM (toDigit radix) with
          | none => rw [hx, hr] at hm; cases hm
          | some vs =>
            rw [List.mem_cons, not_or]
            refine ⟨?_, ih vs hr⟩
            rintro rfl
            rw [hc] at hx; cases hx

theorem dec_head (n : Nat) (c : Char) (hc : toDigit 10 c = none) : ∀ r, Nat.toDigits 10 n ≠ c :: r := by
  intro r e
  have := digits_not_mem (parseDigits_dec n) hc
  rw [e] at this
  exact this (List.mem_cons_self)

theorem parseUint_plain {radix max : Nat} {t : List Char} {n : Nat} (h : parseDigits radix t = some n) (hp : toDigit radix '+' = none)
    (hn : n ≤ max) : parseUint radix max t = some n := by
  have hm := digits_not_mem h hp
  unfold parseUint
  have : stripPlus t = t := by
    cases t with
    | nil => rfl
    | cons c r =>
      have hne : c ≠ '+' := fun e => hm (by rw [e]; exact List.mem_cons_self)
      unfold stripPlus
      split
      · rename_i heq; injection heq with e1 e2; exact absurd e1 hne
      · rfl
  rw [this, h]
  dsimp only
  rw [if_pos hn]

theorem parseInt_show {half : Nat} {w : Int} (h : -(half : Int) ≤ w) (h' : w < half) : parseInt half (showInt w) = some w := by
  unfold showInt
  by_cases hw : w < 0
  · rw [if_pos hw]
    have e : ∀ r, parseInt half ('-' :: r) = match parseDigits 10 r with
      | some n => if n ≤ half then some (-(n : Int)) else none
      | none => none := fun r => rfl
    rw [e, parseDigits_dec]
    dsimp only
    rw [if_pos (by omega)]
    congr 1; omega
  · rw [if_neg hw]
    have hp := parseUint_plain (parseDigits_dec w.natAbs) (by decide) (max := half - 1) (by omega)
    unfold parseInt
    split
    · rename_i r e; exact absurd e (dec_head _ _ (by decide) _)
    · rw [hp]
      dsimp only
      congr 1; omega

theorem showInt_noSep (w : Int) : ':' ∉ showInt w := by
  have := digits_not_mem (parseDigits_dec w.natAbs) (c := ':') (by decide)
  unfold showInt
  split
  · rw [List.mem_cons, not_or]; exact ⟨by decide, this⟩
  · exact this

/-! ### Splitting -/

/-- `str::split(c)` -/
def splitOn (c : Char) : List Char → List (List Char)
  | [] => [[]]
  | x :: t =>
    if x = c then [] :: splitOn c t
    else
      match splitOn c t with
      | h :: r => (x :: h) :: r
      | [] => [[x]]

theorem splitOn_ne_nil (c : Char) : ∀ t, splitOn c t ≠ []
  | [] => by simp [splitOn]
  | x :: t => by
    unfold splitOn
    split
    · simp
    · split <;> simp

/-- The parts joined with the separator. -/
def joinSep (c : Char) : List (List Char) → List Char
  | [] => []
  | [a] => a
  | a :: b :: r => a ++ c :: joinSep c (b :: r)

theorem splitOn_spec (c : Char) : ∀ t, joinSep c (splitOn c t) = t ∧ ∀ p ∈ splitOn c t, c ∉ p
  | [] => by simp [splitOn, joinSep]
  | x :: t => by
    obtain ⟨h1, h2⟩ := splitOn_spec c t
    unfold splitOn
    by_cases hx : x = c
    · rw [if_pos hx]
      cases hs : splitOn c t with
      | nil => exact absurd hs (splitOn_ne_nil c t)
      | cons a r =>
        rw [hs] at h1 h2
        refine ⟨?_, ?_⟩
        · unfold joinSep; rw [h1, hx]; rfl
        · intro p hp
          rcases List.mem_cons.1 hp with e | hp
          · rw [e]; simp
          · exact h2 p hp
    · rw [if_neg hx]
      cases hs : splitOn c t with
      | nil => exact absurd hs (splitOn_ne_nil c t)
      | cons a r =>
        rw [hs] at h1 h2
        refine ⟨?_, ?_⟩
        · cases r with
          | nil => unfold joinSep at h1 ⊢; rw [h1]
          | cons b r => unfold joinSep at h1 ⊢; rw [← h1]; rfl
        · intro p hp
          rcases List.mem_cons.1 hp with e | hp
          · rw [e, List.mem_cons, not_or]
            exact ⟨fun e => hx e.symm, h2 a List.mem_cons_self⟩
          · exact h2 p (List.mem_cons_of_mem _ hp)

theorem splitOn_single {c : Char} : ∀ {a : List Char}, c ∉ a → splitOn c a = [a]
  | [], _ => rfl
  | x :: a, h => by
    rw [List.mem_cons, not_or] at h
    unfold splitOn
    rw [if_neg (fun e => h.1 e.symm), splitOn_single h.2]

theorem splitOn_cons {c : Char} : ∀ {a : List Char} (t : List Char), c ∉ a → splitOn c (a ++ c :: t) = a :: splitOn c t
  | [], t, _ => by
    show splitOn c (c :: t) = _
    rw [splitOn, if_pos rfl]
  | x :: a, t, h => by
    rw [List.mem_cons, not_or] at h
    show splitOn c (x :: (a ++ c :: t)) = _
    rw [splitOn, if_neg (fun e => h.1 e.symm), splitOn_cons t h.2]

/-- The parts are the only texts without the separator that join to the text. -/
theorem splitOn_join {c : Char} : ∀ {ps : List (List Char)}, ps ≠ [] → (∀ p ∈ ps, c ∉ p) → splitOn c (joinSep c ps) = ps
  | [], h, _ => absurd rfl h
  | [a], _, h => splitOn_single (h a List.mem_cons_self)
  | a :: b :: r, _, h => by
    unfold joinSep
    rw [splitOn_cons _ (h a List.mem_cons_self), splitOn_join (by simp) (fun p hp => h p (List.mem_cons_of_mem _ hp))]

end Text
end Verif
