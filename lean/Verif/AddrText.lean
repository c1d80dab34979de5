import Verif.DictKeys
import Verif.Crc
/-
C47, texts of addresses: the raw form `workchain:hex`, the base64 forms with a checksum, external addresses
(`models/message/address.rs`).  Texts are lists of characters.
-/
set_option linter.unusedVariables false
set_option linter.unusedSimpArgs false
namespace Verif
open Crc Text

/-! ### Model -/

/-- `error.rs:76-94` `ParseAddrError` -/
inductive AddrErr where
  | empty | invalidWorkchain | invalidAccountId | unexpectedPart | badFormat
  deriving DecidableEq, Repr

/-- `address.rs:1015-1023` `Display` for `Anycast` -/
def Anycast.display (a : Anycast) : List Char := Bitstring.fmtHex hexLower a.pfx a.depth

/-- The alphabet of a base64 form. -/
def abcOf (url : Bool) : List Char := if url then b64url else b64std

namespace StdAddr

def anycastText : Option Anycast → List Char
  | none => []
  | some a => a.display ++ [':']

/-- `address.rs:377-385` `Display` -/
def display (a : StdAddr) : List Char := anycastText a.anycast ++ (showInt a.workchain ++ ':' :: encodeHex hexLower a.address)

/-- `address.rs:427-439`: the parts behind the workchain -/
def accountPart (w : Int) : List (List Char) → Except AddrErr StdAddr
  | [] => .error .invalidAccountId
  | h :: rest =>
    match decodeToSlice 32 h with
    | none => .error .invalidAccountId
    | some d => if rest = [] then .ok ⟨none, w, d⟩ else .error .unexpectedPart

/-- `address.rs:408-441` `FromStr` -/
def fromStr (t : List Char) : Except AddrErr StdAddr :=
  if t = [] then .error .empty
  else
    match splitOn ':' t with
    | [] => .error .empty
    | p :: rest =>
      match parseInt 128 p with
      | none => .error .invalidWorkchain
      | some w => accountPart w rest

/-- `address.rs:676-685` `Base64StdAddrFlags` -/
structure Flags where
  testnet : Bool
  url : Bool
  bounceable : Bool
  deriving DecidableEq, Repr

/-- `address.rs:652-661` `StdAddrFormat` -/
structure Format where
  raw : Bool
  b64 : Bool
  url : Bool

/-- The two bytes of a checksum, the high one first. -/
def crcBytes (c : BitVec 16) : List Byte := [(c >>> 8).setWidth 8, c.setWidth 8]

/-- The first byte, `address.rs:702-703` -/
def tagByte (f : Flags) : Byte :=
  BitVec.ofInt 8 (0x51 - (if f.bounceable then 1 else 0) * 0x40 + (if f.testnet then 1 else 0) * 0x80)

/-- The 34 bytes covered by the checksum, `address.rs:702-705` -/
def packet (b0 : Byte) (a : StdAddr) : List Byte := b0 :: BitVec.ofNat 8 (i8ToU8 a.workchain) :: a.address

/-- `address.rs:697-723` `Display` for `DisplayBase64StdAddr` -/
def displayB64 (f : Flags) (a : StdAddr) : List Char :=
  b64Encode (abcOf f.url) (packet (tagByte f) a ++ crcBytes (crc16 (packet (tagByte f) a)))

/-- The checks and the result of `address.rs:293-310` on the 36 decoded bytes. -/
def fromPacket (url : Bool) (buf : List Byte) : Except AddrErr (StdAddr × Flags) :=
  let crc := crc16 (buf.take 34)
  if buf.getD 34 0 ≠ (crc >>> 8).setWidth 8 ∨ buf.getD 35 0 ≠ crc.setWidth 8 then .error .badFormat
  else .ok (⟨none, u8ToI8 (buf.getD 1 0).toNat, (buf.drop 2).take 32⟩, ⟨(buf.getD 0 0) &&& 0x80 ≠ 0, url, (buf.getD 0 0) &&& 0x40 = 0⟩)

/-- `address.rs:280-311` -/
def fromB64 (t : List Char) : Except AddrErr (StdAddr × Flags) :=
  let url := decide ('_' ∈ t ∨ '-' ∈ t)
  match b64Decode (abcOf url) t with
  | none => .error .badFormat
  | some buf => if buf.length = 36 then fromPacket url buf else .error .badFormat

/-- `address.rs:270-313` `from_str_ext` -/
def fromStrExt (t : List Char) (fmt : Format) : Except AddrErr (StdAddr × Flags) :=
  if utf8Len t = 0 then .error .empty
  else if 66 ≤ utf8Len t ∧ utf8Len t ≤ 69 ∧ fmt.raw = true then (fromStr t).map fun a => (a, ⟨false, false, false⟩)
  else if utf8Len t = 48 ∧ (fmt.b64 || fmt.url) = true then fromB64 t
  else .error .badFormat

/-- `address.rs:333-336` -/
def pfx (a : StdAddr) : Nat := (fromBE 8 (a.address.take 8)).toNat

end StdAddr

/-- `address.rs:767-773` -/
def VarAddr.pfx (a : VarAddr) : Nat :=
  (fromBE 8 (a.address.take (min a.address.length 8) ++ List.replicate (8 - min a.address.length 8) 0)).toNat

/-- `address.rs:849-854` `ExtAddr` -/
structure ExtAddr where
  len : Nat
  data : List Byte
  deriving DecidableEq, Repr

namespace ExtAddr
/-- `address.rs:859-872` -/
def new (n : Nat) (d : List Byte) : Option ExtAddr := if n ≤ smallMax 9 then some ⟨n, d⟩ else none
/-- `address.rs:880-888` `Display` -/
def display (a : ExtAddr) : List Char := ':' :: Bitstring.fmtHex hexLower a.data a.len
def orErr {α : Type} (e : AddrErr) : Option α → Except AddrErr α
  | some a => .ok a
  | none => .error e
def fromHex (t : List Char) : Except AddrErr ExtAddr :=
  match Bitstring.fromHexStr t with
  | none => .error .invalidAccountId
  | some (d, n) => orErr .unexpectedPart (new n d)
/-- `address.rs:890-908` `FromStr` -/
def fromStr : List Char → Except AddrErr ExtAddr
  | [] => .error .empty
  | ':' :: t => fromHex t
  | _ => .error .unexpectedPart
end ExtAddr

/-! ### Proofs -/

/-- The groups of six bits of whole triples of bytes. -/
def sextets : List Byte → List Nat
  | a :: b :: c :: t =>
    let n := a.toNat * 65536 + b.toNat * 256 + c.toNat
    n / 262144 :: n / 4096 % 64 :: n / 64 % 64 :: n % 64 :: sextets t
  | _ => []

theorem triples {P : List Byte → Prop} (h0 : P []) (hs : ∀ a b c t, P t → P (a :: b :: c :: t)) :
    ∀ (k : Nat) (bs : List Byte), bs.length = 3 * k → P bs := by
  intro k
  induction k with
  | zero => intro bs h; rw [List.eq_nil_of_length_eq_zero h]; exact h0
  | succ k ih =>
    intro bs h
    match bs, h with
    | a :: b :: c :: t, h => exact hs a b c t (ih t (by simp at h; omega))

theorem sextets_encode (abc : List Char) {k : Nat} {bs : List Byte} (h : bs.length = 3 * k) :
    b64Encode abc bs = (sextets bs).map fun n => abc.getD n '?' := by
  refine triples (P := fun bs => b64Encode abc bs = (sextets bs).map fun n => abc.getD n '?') rfl ?_ k bs h
  intro a b c t ih
  show _ :: _ :: _ :: _ :: _ = _ :: _ :: _ :: _ :: _
  rw [ih]

theorem sextets_lt {k : Nat} {bs : List Byte} (h : bs.length = 3 * k) : ∀ n ∈ sextets bs, n < 64 := by
  refine triples (P := fun bs => ∀ n ∈ sextets bs, n < 64) (by intro n h; cases h) ?_ k bs h
  intro a b c t ih n hn
  have ha := a.isLt
  have hb := b.isLt
  have hc := c.isLt
  simp only [sextets, List.mem_cons] at hn
  rcases hn with h | h | h | h | h
  · omega
  · omega
  · omega
  · omega
  · exact ih n h

theorem triple_bits (a b c : Byte) : wordBits a ++ (wordBits b ++ wordBits c) =
    natBits 6 ((a.toNat * 65536 + b.toNat * 256 + c.toNat) / 262144) ++ (natBits 6 ((a.toNat * 65536 + b.toNat * 256 + c.toNat) / 4096 % 64) ++
      (natBits 6 ((a.toNat * 65536 + b.toNat * 256 + c.toNat) / 64 % 64) ++ natBits 6 ((a.toNat * 65536 + b.toNat * 256 + c.toNat) % 64))) := by
  have ha := a.isLt
  have hb := b.isLt
  have hc := c.isLt
  refine natOfBits_inj (by simp) ?_
  simp only [natOfBits_append, natOfBits_wordBits, natOfBits_natBits, List.length_append, wordBits_length, natBits_length]
  omega

theorem sextets_bits {k : Nat} {bs : List Byte} (h : bs.length = 3 * k) : bytesToBits bs = (sextets bs).flatMap (natBits 6) := by
  refine triples (P := fun bs => bytesToBits bs = (sextets bs).flatMap (natBits 6)) rfl ?_ k bs h
  intro a b c t ih
  rw [bytesToBits_cons, bytesToBits_cons, bytesToBits_cons, ih]
  have e : sextets (a :: b :: c :: t) = [(a.toNat * 65536 + b.toNat * 256 + c.toNat) / 262144, (a.toNat * 65536 + b.toNat * 256 + c.toNat) / 4096 % 64,
    (a.toNat * 65536 + b.toNat * 256 + c.toNat) / 64 % 64, (a.toNat * 65536 + b.toNat * 256 + c.toNat) % 64] ++ sextets t := rfl
  rw [e, List.flatMap_append]
  have := triple_bits a b c
  simp only [List.flatMap_cons, List.flatMap_nil, List.append_nil]
  rw [← this]
  simp only [List.append_assoc]

theorem sextets_length {k : Nat} : ∀ {bs : List Byte}, bs.length = 3 * k → (sextets bs).length = 4 * k := by
  induction k with
  | zero => intro bs h; rw [List.eq_nil_of_length_eq_zero h]; rfl
  | succ k ih =>
    intro bs h
    match bs, h with
    | a :: b :: c :: t, h =>
      show (sextets t).length + 1 + 1 + 1 + 1 = _
      rw [ih (bs := t) (by simp at h; omega)]; omega

theorem abc_size : ∀ n, n < 64 → (b64std.getD n '?').utf8Size = 1 ∧ (b64url.getD n '?').utf8Size = 1 := by decide +kernel
theorem abc_plain : ∀ n, n < 64 → b64std.getD n '?' ≠ '_' ∧ b64std.getD n '?' ≠ '-' ∧
    (b64url.getD n '?' ≠ '_' → b64url.getD n '?' ≠ '-' → b64url.getD n '?' = b64std.getD n '?') := by decide +kernel
theorem abc_val : ∀ m, m < 64 → ∀ n, n < 64 → (b64std.getD m '?' = b64std.getD n '?' → m = n) ∧ (b64url.getD m '?' = b64url.getD n '?' → m = n) ∧
    (b64std.getD m '?' = b64url.getD n '?' → m = n) := by decide +kernel

theorem abcOf_isAbc (u : Bool) : IsAbc (abcOf u) := by cases u; exact isAbc_std; exact isAbc_url
theorem abcOf_val (u v : Bool) {m n : Nat} (hm : m < 64) (hn : n < 64) (h : (abcOf u).getD m '?' = (abcOf v).getD n '?') : m = n := by
  have := abc_val m hm n hn
  have h' := abc_val n hn m hm
  cases u <;> cases v
  · exact this.1 h
  · exact this.2.2 h
  · exact (h'.2.2 h.symm).symm
  · exact this.2.1 h

theorem b64_utf8' (u : Bool) {k : Nat} {bs : List Byte} (h : bs.length = 3 * k) : utf8Len (b64Encode (abcOf u) bs) = 4 * k := by
  rw [sextets_encode _ h, ← sextets_length h]
  have hl := sextets_lt h
  generalize sextets bs = S at hl
  induction S with
  | nil => rfl
  | cons n S ih =>
    have hn := abc_size n (hl n (by simp))
    have := ih fun m hm => hl m (by simp [hm])
    unfold utf8Len at this ⊢
    simp only [List.map_cons, List.sum_cons, List.length_cons]
    rw [this]
    cases u
    · rw [show (abcOf false) = b64std from rfl, hn.1]; omega
    · rw [show (abcOf true) = b64url from rfl, hn.2]; omega

/-- Which alphabet a text is taken for does not matter when it has none of the two special characters. -/
theorem b64_same {k : Nat} {bs : List Byte} (h : bs.length = 3 * k) (u : Bool) :
    b64Encode (abcOf u) bs = b64Encode (abcOf (decide ('_' ∈ b64Encode (abcOf u) bs ∨ '-' ∈ b64Encode (abcOf u) bs))) bs := by
  by_cases hc : '_' ∈ b64Encode (abcOf u) bs ∨ '-' ∈ b64Encode (abcOf u) bs
  · rw [decide_eq_true hc]
    cases u with
    | true => rfl
    | false =>
      exfalso
      rw [sextets_encode _ h, show abcOf false = b64std from rfl] at hc
      have hl := sextets_lt h
      rcases hc with hc | hc
      all_goals
        rw [List.mem_map] at hc
        obtain ⟨n, hn, e⟩ := hc
        have := abc_plain n (hl n hn)
      · exact this.1 e
      · exact this.2.1 e
  · rw [decide_eq_false hc]
    cases u with
    | false => rfl
    | true =>
      rw [sextets_encode _ h] at hc ⊢
      rw [sextets_encode _ h]
      have hl := sextets_lt h
      refine List.map_congr_left fun n hn => ?_
      have := abc_plain n (hl n hn)
      refine this.2.2 ?_ ?_
      · intro e; exact hc (Or.inl (List.mem_map.2 ⟨n, hn, e⟩))
      · intro e; exact hc (Or.inr (List.mem_map.2 ⟨n, hn, e⟩))

namespace StdAddr

theorem fromStr_iff (t : List Char) (a : StdAddr) : fromStr t = .ok a ↔
    ∃ p h, t = p ++ ':' :: h ∧ ':' ∉ p ∧ parseInt 128 p = some a.workchain ∧ HexOf h a.address ∧ a.address.length = 32 ∧ a.anycast = none := by
  unfold fromStr
  constructor
  · intro h
    by_cases ht : t = []
    · rw [if_pos ht] at h; cases h
    rw [if_neg ht] at h
    have hs := splitOn_spec ':' t
    cases he : splitOn ':' t with
    | nil => rw [he] at h; cases h
    | cons p rest =>
      rw [he] at h hs
      dsimp only at h
      cases hp : parseInt 128 p with
      | none => rw [hp] at h; cases h
      | some w =>
        rw [hp] at h
        dsimp only at h
        cases rest with
        | nil => cases h
        | cons x rest =>
          simp only [accountPart] at h
          cases hd : decodeToSlice 32 x with
          | none => rw [hd] at h; cases h
          | some d =>
            rw [hd] at h
            dsimp only at h
            by_cases hr : rest = []
            · rw [if_pos hr] at h
              subst hr
              injection h with h
              subst h
              have := (decodeToSlice_spec 32 x d).1 hd
              exact ⟨p, x, hs.1.symm, hs.2 p (by simp), hp, this.1, this.2, rfl⟩
            · rw [if_neg hr] at h; cases h
  · rintro ⟨p, x, rfl, h1, h2, h3, h4, h5⟩
    rw [if_neg (by simp), splitOn_cons _ h1, splitOn_single h3.noSep]
    dsimp only
    rw [h2]
    dsimp only
    simp only [accountPart]
    rw [(decodeToSlice_spec 32 x a.address).2 ⟨h3, h4⟩]
    obtain ⟨y, w, d⟩ := a
    cases h5; rfl

theorem packet_length {b0 : Byte} {a : StdAddr} (h : a.address.length = 32) : (packet b0 a).length = 34 := by
  unfold packet; simp [h]

/-- The 36 bytes of a packet with its checksum. -/
theorem fromPacket_iff (url : Bool) {buf : List Byte} (h : buf.length = 36) (a : StdAddr) (f : Flags) :
    fromPacket url buf = .ok (a, f) ↔ ∃ b0, buf = packet b0 a ++ crcBytes (crc16 (packet b0 a)) ∧ a.Ok ∧ a.anycast = none ∧ f.url = url ∧
      (f.testnet = decide (b0 &&& 0x80 ≠ 0)) ∧ f.bounceable = decide (b0 &&& 0x40 = 0) := by
  unfold fromPacket
  dsimp only
  constructor
  · intro e
    by_cases hc : buf.getD 34 0 ≠ (crc16 (buf.take 34) >>> 8).setWidth 8 ∨ buf.getD 35 0 ≠ (crc16 (buf.take 34)).setWidth 8
    · rw [if_pos hc] at e; cases e
    · rw [if_neg hc] at e
      injection e with e
      injection e with e1 e2
      have hc1 : buf.getD 34 0 = (crc16 (buf.take 34) >>> 8).setWidth 8 := Classical.byContradiction fun h => hc (Or.inl h)
      have hc2 : buf.getD 35 0 = (crc16 (buf.take 34)).setWidth 8 := Classical.byContradiction fun h => hc (Or.inr h)
      have hlt := BitVec.isLt (buf.getD 1 0)
      have hr := u8_round hlt
      have hb : buf.take 34 = packet (buf.getD 0 0) a := by
        rw [← e1]
        unfold packet
        dsimp only
        rw [hr.2, BitVec.ofNat_toNat, BitVec.setWidth_eq]
        match buf, h with
        | x :: y :: t, h =>
          show x :: y :: t.take 32 = x :: y :: t.take 32
          rfl
      refine ⟨buf.getD 0 0, ?_, ?_, ?_, ?_, ?_, ?_⟩
      · rw [← hb]
        unfold crcBytes
        rw [← hc1, ← hc2]
        conv => lhs; rw [← List.take_append_drop 34 buf]
        congr 1
        refine List.ext_getElem (by simp; omega) fun i hi hi' => ?_
        have : i = 0 ∨ i = 1 := by simp at hi'; omega
        rcases this with rfl | rfl
        · simp [List.getD_eq_getElem?_getD, List.getElem?_eq_getElem (show 34 < buf.length by omega)]
        · simp [List.getD_eq_getElem?_getD, List.getElem?_eq_getElem (show 35 < buf.length by omega)]
      · rw [← e1]; exact ⟨trivial, hr.1, by simp; omega⟩
      · rw [← e1]
      · rw [← e2]
      · rw [← e2]
      · rw [← e2]
  · rintro ⟨b0, rfl, h1, h2, h3, h4, h5⟩
    have hl := packet_length (b0 := b0) h1.2.2
    have e1 : (packet b0 a ++ crcBytes (crc16 (packet b0 a))).take 34 = packet b0 a := by rw [← hl, List.take_left]
    have e2 : (packet b0 a ++ crcBytes (crc16 (packet b0 a))).getD 34 0 = (crc16 (packet b0 a) >>> 8).setWidth 8 := by
      rw [List.getD_eq_getElem?_getD, List.getElem?_append_right (by omega), hl]; rfl
    have e3 : (packet b0 a ++ crcBytes (crc16 (packet b0 a))).getD 35 0 = (crc16 (packet b0 a)).setWidth 8 := by
      rw [List.getD_eq_getElem?_getD, List.getElem?_append_right (by omega), hl]; rfl
    have hw := i8_round h1.2.1
    rw [e1, e2, e3, if_neg (by simp)]
    have e4 : (packet b0 a ++ crcBytes (crc16 (packet b0 a))).getD 1 0 = BitVec.ofNat 8 (i8ToU8 a.workchain) := rfl
    have e5 : (packet b0 a ++ crcBytes (crc16 (packet b0 a))).getD 0 0 = b0 := rfl
    have e6 : ((packet b0 a ++ crcBytes (crc16 (packet b0 a))).drop 2).take 32 = a.address := by
      show (a.address ++ crcBytes (crc16 (packet b0 a))).take 32 = _
      rw [← h1.2.2, List.take_left]
    rw [e4, e5, e6, Key.ofNat_toNat' hw.1, hw.2]
    obtain ⟨x, w, d⟩ := a
    obtain ⟨f1, f2, f3⟩ := f
    cases h2; cases h3; cases h4; cases h5; rfl

/-! ### C47 -/

/-- C47: the raw texts that are accepted are exactly a decimal `i8`, a colon and 64 hexadecimal digits; the result is the address they denote. -/
theorem C47_raw_accept (t : List Char) (a : StdAddr) : fromStr t = .ok a ↔
    ∃ p h, t = p ++ ':' :: h ∧ ':' ∉ p ∧ parseInt 128 p = some a.workchain ∧ HexOf h a.address ∧ a.address.length = 32 ∧ a.anycast = none :=
  fromStr_iff t a

/-- C47 (partial: the property asks for all addresses): an address without anycast is parsed back from its raw text, by both parsers. -/
theorem C47_raw_partial {a : StdAddr} (h : a.Ok) (hn : a.anycast = none) (fmt : Format) (hf : fmt.raw = true) :
    fromStr a.display = .ok a ∧ fromStrExt a.display fmt = .ok (a, ⟨false, false, false⟩) := by
  have e : a.display = showInt a.workchain ++ ':' :: encodeHex hexLower a.address := by unfold display; rw [hn]; rfl
  have hp : parseInt 128 (showInt a.workchain) = some a.workchain := parseInt_show h.2.1.1 h.2.1.2
  have h1 : fromStr a.display = .ok a := (fromStr_iff _ _).2 ⟨_, _, e, showInt_noSep _, hp, (encodeHex_hexOf a.address).1, h.2.2, hn⟩
  refine ⟨h1, ?_⟩
  have hlen : ∃ n, utf8Len (showInt a.workchain) = n ∧ 1 ≤ n ∧ n ≤ 4 := by
    have : ∀ k : Fin 256, 1 ≤ utf8Len (showInt ((k.val : Int) - 128)) ∧ utf8Len (showInt ((k.val : Int) - 128)) ≤ 4 := by decide +kernel
    have hw := h.2.1
    unfold IsI8 at hw
    have e2 := this ⟨(a.workchain + 128).toNat, by omega⟩
    have e3 : (((a.workchain + 128).toNat : Nat) : Int) - 128 = a.workchain := by omega
    dsimp only at e2
    rw [e3] at e2
    exact ⟨_, rfl, e2⟩
  obtain ⟨n, hn1, hn2, hn3⟩ := hlen
  have hu : utf8Len a.display = n + 1 + 64 := by
    have := HexOf_utf8 (encodeHex_hexOf a.address).1
    rw [e]
    unfold utf8Len at *
    rw [List.map_append, List.sum_append, hn1, List.map_cons, List.sum_cons, this, h.2.2]
    rw [show Char.utf8Size ':' = 1 from by decide]
  unfold fromStrExt
  rw [if_neg (by omega), if_pos ⟨by omega, by omega, hf⟩, h1]; rfl

/-- C47, violated: the raw text of an address with anycast is never accepted. -/
theorem C47_anycast_text {a : StdAddr} {c : Anycast} (h : a.anycast = some c) (b : StdAddr) : fromStr a.display ≠ .ok b := by
  intro e
  obtain ⟨p, x, e1, h1, _, h3, _⟩ := (fromStr_iff _ _).1 e
  have hx := h3.noSep
  have e2 : a.display = c.display ++ ':' :: (showInt a.workchain ++ ':' :: encodeHex hexLower a.address) := by
    unfold display; rw [h]; simp [anycastText]
  have c1 : a.display.count ':' = 1 := by
    rw [e1, List.count_append, List.count_eq_zero_of_not_mem h1, List.count_cons_self, List.count_eq_zero_of_not_mem hx]
  have c2 : 2 ≤ a.display.count ':' := by
    rw [e2, List.count_append, List.count_cons_self, List.count_append, List.count_cons_self]; omega
  omega

/-- C47: the base64 texts that are accepted are exactly the encodings of a tag byte, the workchain, the account and the checksum of these 34 bytes. -/
theorem C47_base64_accept {t : List Char} {fmt : Format} (hl : utf8Len t = 48) (hf : (fmt.b64 || fmt.url) = true) (a : StdAddr) (f : Flags) :
    fromStrExt t fmt = .ok (a, f) ↔ ∃ b0, t = b64Encode (abcOf f.url) (packet b0 a ++ crcBytes (crc16 (packet b0 a))) ∧ a.Ok ∧ a.anycast = none ∧
      f.url = decide ('_' ∈ t ∨ '-' ∈ t) ∧ f.testnet = decide (b0 &&& 0x80 ≠ 0) ∧ f.bounceable = decide (b0 &&& 0x40 = 0) := by
  have e : fromStrExt t fmt = fromB64 t := by
    unfold fromStrExt
    rw [if_neg (by omega), if_neg (by omega), if_pos ⟨hl, hf⟩]
  rw [e]
  unfold fromB64
  dsimp only
  constructor
  · intro e
    cases hd : b64Decode (abcOf (decide ('_' ∈ t ∨ '-' ∈ t))) t with
    | none => rw [hd] at e; cases e
    | some buf =>
      rw [hd] at e
      dsimp only at e
      by_cases h36 : buf.length = 36
      · rw [if_pos h36] at e
        obtain ⟨b0, h1, h2, h3, h4, h5, h6⟩ := (fromPacket_iff _ h36 a f).1 e
        refine ⟨b0, ?_, h2, h3, h4, h5, h6⟩
        rw [← h1, h4]
        exact (b64_spec (abcOf_isAbc _) t buf).1 hd
      · rw [if_neg h36] at e; cases e
  · rintro ⟨b0, h1, h2, h3, h4, h5, h6⟩
    have hd := (b64_spec (abcOf_isAbc f.url) t _).2 h1
    have h36 : (packet b0 a ++ crcBytes (crc16 (packet b0 a))).length = 36 := by
      rw [List.length_append, packet_length h2.2.2]; rfl
    rw [← h4, hd]
    dsimp only
    rw [if_pos h36]
    exact (fromPacket_iff _ h36 a f).2 ⟨b0, rfl, h2, h3, rfl, h5, h6⟩

theorem tag_flags : ∀ t u b : Bool, decide (tagByte ⟨t, u, b⟩ &&& 0x80 ≠ 0) = t ∧ decide (tagByte ⟨t, u, b⟩ &&& 0x40 = 0) = b := by decide

/-- C47 (partial: the property asks for the flags): an address without anycast is parsed back from each of its base64 texts, together with its
flags, except that the URL-safe flag is lost when the text has neither `_` nor `-`. -/
theorem C47_base64_partial {a : StdAddr} (h : a.Ok) (hn : a.anycast = none) (f : Flags) (fmt : Format) (hf : (fmt.b64 || fmt.url) = true) :
    utf8Len (displayB64 f a) = 48 ∧
    fromStrExt (displayB64 f a) fmt = .ok (a, { f with url := decide ('_' ∈ displayB64 f a ∨ '-' ∈ displayB64 f a) }) ∧
    (decide ('_' ∈ displayB64 f a ∨ '-' ∈ displayB64 f a) = true → f.url = true) := by
  have h36 : (packet (tagByte f) a ++ crcBytes (crc16 (packet (tagByte f) a))).length = 3 * 12 := by
    rw [List.length_append, packet_length h.2.2]; rfl
  have hu : utf8Len (displayB64 f a) = 48 := b64_utf8' f.url h36
  obtain ⟨f1, f2, f3⟩ := f
  have ht := tag_flags f1 f2 f3
  refine ⟨hu, (C47_base64_accept hu hf _ _).2 ⟨tagByte ⟨f1, f2, f3⟩, b64_same h36 f2, h, hn, rfl, ht.1.symm, ht.2.symm⟩, ?_⟩
  intro hc
  cases f2 with
  | true => rfl
  | false =>
    exfalso
    have hc := of_decide_eq_true hc
    unfold displayB64 at hc
    rw [sextets_encode _ h36] at hc
    have hl := sextets_lt h36
    rcases hc with hc | hc
    all_goals
      rw [List.mem_map] at hc
      obtain ⟨n, hn, e⟩ := hc
      have := abc_plain n (hl n hn)
    · exact this.1 e
    · exact this.2.1 e

/-- C47, violated: the URL-safe form of the zero address in the basechain comes back marked as not URL-safe. -/
theorem C47_url_flag_wrong : ∃ a f g fmt, StdAddr.Ok a ∧ a.anycast = none ∧ fromStrExt (displayB64 f a) fmt = .ok (a, g) ∧ f.url = true ∧ g.url = false :=
  ⟨⟨none, 0, List.replicate 32 0⟩, ⟨false, true, true⟩, ⟨false, false, true⟩, ⟨false, false, true⟩, ⟨trivial, by unfold IsI8; decide, by decide⟩, rfl, by decide +kernel, rfl, rfl⟩

/-- C47: the base64 text is the documented form: the tag 0x11 (bounceable) or 0x51 (non-bounceable), with 0x80 added for test networks,
the workchain, the address and the big-endian CRC of these 34 bytes. -/
theorem C47_base64_form (a : StdAddr) (f : Flags) :
    ∃ tag : Byte, tag = BitVec.ofNat 8 ((if f.bounceable then 0x11 else 0x51) + (if f.testnet then 0x80 else 0)) ∧
      displayB64 f a = b64Encode (if f.url then b64url else b64std)
        ((tag :: BitVec.ofNat 8 (i8ToU8 a.workchain) :: a.address) ++ crcBytes (crc16 (tag :: BitVec.ofNat 8 (i8ToU8 a.workchain) :: a.address))) := by
  obtain ⟨t, u, b⟩ := f
  refine ⟨_, rfl, ?_⟩
  cases t <;> cases u <;> cases b <;> rfl

/-- C47, violated: a tag byte other than the four documented ones is accepted. -/
theorem C47_tag_wrong : ∃ t fmt a f, fromStrExt t fmt = .ok (a, f) ∧ ∀ g, displayB64 g a ≠ t := by
  refine ⟨b64Encode b64std (packet 0 ⟨none, 0, List.replicate 32 0⟩ ++ crcBytes (crc16 (packet 0 ⟨none, 0, List.replicate 32 0⟩))),
    ⟨false, true, false⟩, ⟨none, 0, List.replicate 32 0⟩, ⟨false, false, true⟩, by decide +kernel, ?_⟩
  rintro ⟨t, u, b⟩
  revert t u b
  decide +kernel

/-- C47: mistyping does not lead to another address: two accepted base64 texts that differ only within two neighbouring characters
denote the same address. -/
theorem C47_typo {t t' : List Char} {fmt fmt' : Format} {a a' : StdAddr} {f f' : Flags} (hl : utf8Len t = 48) (hl' : utf8Len t' = 48)
    (hf : (fmt.b64 || fmt.url) = true) (hf' : (fmt'.b64 || fmt'.url) = true)
    (h : fromStrExt t fmt = .ok (a, f)) (h' : fromStrExt t' fmt' = .ok (a', f'))
    {p m m' s : List Char} (ht : t = p ++ m ++ s) (ht' : t' = p ++ m' ++ s) (hm : m.length = m'.length) (h2 : m.length ≤ 2) :
    a = a' ∧ f.testnet = f'.testnet ∧ f.bounceable = f'.bounceable := by
  obtain ⟨b0, e, o, n, u, v, w⟩ := (C47_base64_accept hl hf a f).1 h
  obtain ⟨b0', e', o', n', u', v', w'⟩ := (C47_base64_accept hl' hf' a' f').1 h'
  have l36 : (packet b0 a ++ crcBytes (crc16 (packet b0 a))).length = 3 * 12 := by rw [List.length_append, packet_length o.2.2]; rfl
  have l36' : (packet b0' a' ++ crcBytes (crc16 (packet b0' a'))).length = 3 * 12 := by rw [List.length_append, packet_length o'.2.2]; rfl
  have key : packet b0 a ++ crcBytes (crc16 (packet b0 a)) = packet b0' a' ++ crcBytes (crc16 (packet b0' a')) := by
    refine Classical.byContradiction fun hne => ?_
    have c0 : crc16 (packet b0 a ++ crcBytes (crc16 (packet b0 a))) = 0 := (C48_append _ _ _).2 ⟨rfl, rfl⟩
    have c0' : crc16 (packet b0' a' ++ crcBytes (crc16 (packet b0' a'))) = 0 := (C48_append _ _ _).2 ⟨rfl, rfl⟩
    generalize hB : packet b0 a ++ crcBytes (crc16 (packet b0 a)) = B at *
    generalize hB' : packet b0' a' ++ crcBytes (crc16 (packet b0' a')) = B' at *
    rw [sextets_encode _ l36] at e
    rw [sextets_encode _ l36'] at e'
    have sl := sextets_lt l36
    have sl' := sextets_lt l36'
    have sb := sextets_bits l36
    have sb' := sextets_bits l36'
    generalize sextets B = S at *
    generalize sextets B' = S' at *
    rw [ht, List.append_assoc] at e
    rw [ht', List.append_assoc] at e'
    obtain ⟨P, R, rfl, eP, eR⟩ := List.map_eq_append_iff.1 e.symm
    obtain ⟨M, Q, rfl, eM, eQ⟩ := List.map_eq_append_iff.1 eR
    obtain ⟨P', R', rfl, eP', eR'⟩ := List.map_eq_append_iff.1 e'.symm
    obtain ⟨M', Q', rfl, eM', eQ'⟩ := List.map_eq_append_iff.1 eR'
    have same : ∀ (x y : List Nat) (l : List Char), (∀ n ∈ x, n < 64) → (∀ n ∈ y, n < 64) → x.map (fun n => (abcOf f.url).getD n '?') = l →
        y.map (fun n => (abcOf f'.url).getD n '?') = l → x = y := by
      intro x
      induction x with
      | nil =>
        intro y l hx hy e1 e2
        rw [← e1] at e2
        exact (List.map_eq_nil_iff.1 e2).symm
      | cons c x ih =>
        intro y l hx hy e1 e2
        cases y with
        | nil => rw [← e2] at e1; cases e1
        | cons d y =>
          rw [← e2] at e1
          simp only [List.map_cons] at e1
          injection e1 with e3 e4
          rw [abcOf_val _ _ (hx c (by simp)) (hy d (by simp)) e3, ih y _ (fun n h => hx n (by simp [h])) (fun n h => hy n (by simp [h])) e4 rfl]
    have hP : P = P' := same P P' p (fun n h => sl n (by simp [h])) (fun n h => sl' n (by simp [h])) eP eP'
    have hQ : Q = Q' := same Q Q' s (fun n h => sl n (by simp [h])) (fun n h => sl' n (by simp [h])) eQ eQ'
    subst hP hQ
    have f6 : ∀ l : List Nat, (l.flatMap (natBits 6)).length = 6 * l.length := by
      intro l
      induction l with
      | nil => rfl
      | cons x l ih => rw [List.flatMap_cons, List.length_append, ih, natBits_length, List.length_cons]; omega
    have lM : M.length = m.length := by rw [← eM, List.length_map]
    have lM' : M'.length = m'.length := by rw [← eM', List.length_map]
    refine C48_burst (a := B) (b := B') (pre := P.flatMap (natBits 6)) (m := M.flatMap (natBits 6)) (m' := M'.flatMap (natBits 6)) (suf := Q.flatMap (natBits 6))
      ?_ ?_ ?_ ?_ hne (c0.trans c0'.symm)
    · rw [sb, List.flatMap_append, List.flatMap_append, List.append_assoc]
    · rw [sb', List.flatMap_append, List.flatMap_append, List.append_assoc]
    · rw [f6, f6]; omega
    · rw [f6]; omega
  have kp := (List.append_inj key (by rw [packet_length o.2.2, packet_length o'.2.2])).1
  unfold packet at kp
  injection kp with k0 k1
  injection k1 with k1 k2
  have k1' : i8ToU8 a.workchain = i8ToU8 a'.workchain := by
    have := congrArg BitVec.toNat k1
    rwa [Key.ofNat_toNat' (i8_round o.2.1).1, Key.ofNat_toNat' (i8_round o'.2.1).1] at this
  have kw : a.workchain = a'.workchain := by rw [← (i8_round o.2.1).2, ← (i8_round o'.2.1).2, k1']
  refine ⟨?_, by rw [v, v', k0], by rw [w, w', k0]⟩
  obtain ⟨x, y, z⟩ := a
  obtain ⟨x', y', z'⟩ := a'
  cases n; cases n'; cases kw; cases k2; rfl

/-- C47: the prefix of an address is the number in its first 64 bits (those of a shorter address being followed by zeros). -/
theorem C47_prefix :
    (∀ a : StdAddr, a.Ok → a.pfx = natOfBits ((bytesToBits a.address).take 64)) ∧
    (∀ a : VarAddr, a.Ok → a.pfx = natOfBits ((firstBits a.address a.len ++ List.replicate 64 false).take 64)) := by
  refine ⟨fun a h => ?_, fun a h => ?_⟩
  · unfold pfx
    rw [fromBE_toNat (by rw [List.length_take, h.2.2]; rfl)]
    congr 1
    conv => rhs; rw [← List.take_append_drop 8 a.address, bytesToBits_append, List.take_left' (by rw [bytesToBits_length, List.length_take, h.2.2]; rfl)]
  · unfold VarAddr.pfx
    have hl : (a.address.take (min a.address.length 8) ++ List.replicate (8 - min a.address.length 8) 0).length = 8 := by simp
    rw [fromBE_toNat hl]
    congr 1
    obtain ⟨hp1, hp2, hp3⟩ := h.2.2.2.packs
    refine list_ext_getD (by rw [bytesToBits_length, hl, List.length_take, List.length_append, List.length_replicate]; omega) fun i hi => ?_
    rw [bytesToBits_length, hl] at hi
    rw [bytesToBits_getD, bitAt_append, List.getD_eq_getElem?_getD, List.getElem?_take_of_lt (by omega), ← List.getD_eq_getElem?_getD]
    have hbit : (firstBits a.address a.len ++ List.replicate 64 false).getD i false = bitAt a.address i := by
      by_cases hc : i < a.len
      · rw [List.getD_eq_getElem?_getD, List.getElem?_append_left (by omega)]
        unfold firstBits
        rw [List.getElem?_take_of_lt hc, ← List.getD_eq_getElem?_getD, bytesToBits_getD]
      · rw [List.getD_eq_getElem?_getD, List.getElem?_append_right (by omega), List.getElem?_replicate]
        have hz : bitAt a.address i = false := by
          rw [← bytesToBits_getD, hp2.2, List.getD_eq_getElem?_getD, List.getElem?_append_right (by omega), List.getElem?_replicate]
          split <;> rfl
        rw [hz]
        split <;> rfl
    rw [hbit]
    have hlt : (a.address.take (min a.address.length 8)).length = min a.address.length 8 := by simp
    rw [hlt]
    split
    · rename_i hc
      rw [bitAt_take]
      simp [hc]
    · rename_i hc
      rw [bitAt_replicate_zero, bitAt_of_le (by omega)]

example : StdAddr.fromStr "-1:00000000000000000000000000000000000000000000000000000000000000ff".toList =
    .ok ⟨none, -1, List.replicate 31 0 ++ [255]⟩ := by decide +kernel
example : StdAddr.displayB64 ⟨false, false, true⟩ ⟨none, 0, List.replicate 32 0⟩ = "EQAAAAAAAAAAAAAAAAAAAAAAAAAAAAAAAAAAAAAAAAAAAM9c".toList := by decide +kernel

end StdAddr

/-- C47: an external address with its bits is parsed back from its text. -/
theorem C47_ext {a : ExtAddr} (hl : a.len ≤ 511) (h : HoldsBits a.data a.len) : ExtAddr.fromStr a.display = .ok a := by
  obtain ⟨h1, h2, h3⟩ := h.packs
  obtain ⟨d, e, hd⟩ := (Bitstring.C49_round_partial hexLower (Or.inl rfl) (bytes := a.data) (p := firstBits a.data a.len)
    (List.take_prefix _ _) (by omega)).1 (by omega)
  rw [h1] at e
  show ExtAddr.fromHex (Bitstring.fmtHex hexLower a.data a.len) = _
  unfold ExtAddr.fromHex
  rw [e]
  have : d = a.data := Bitstring.Packs.unique hd h2
  rw [this]
  show ExtAddr.orErr _ (ExtAddr.new a.len a.data) = _
  unfold ExtAddr.new
  rw [if_pos (show a.len ≤ smallMax 9 from hl)]; rfl

/-- C47: whatever external address is parsed has a legal length and holds exactly the bits the text denotes. -/
theorem C47_ext_accept {t : List Char} {a : ExtAddr} (h : ExtAddr.fromStr t = .ok a) :
    ∃ s, t = ':' :: s ∧ Bitstring.fromHexStr s = some (a.data, a.len) ∧ a.len ≤ 511 := by
  unfold ExtAddr.fromStr at h
  split at h
  · cases h
  · rename_i s
    unfold ExtAddr.fromHex at h
    cases hs : Bitstring.fromHexStr s with
    | none => rw [hs] at h; cases h
    | some r =>
      obtain ⟨d, n⟩ := r
      rw [hs] at h
      dsimp only at h
      unfold ExtAddr.new at h
      by_cases hc : n ≤ smallMax 9
      · rw [if_pos hc] at h
        injection h with h
        subst h
        exact ⟨s, rfl, hs, hc⟩
      · rw [if_neg hc] at h; cases h
  · cases h

example : ExtAddr.fromStr ":ded_".toList = .ok ⟨11, [0xde, 0xc0]⟩ := by decide +kernel

end Verif
