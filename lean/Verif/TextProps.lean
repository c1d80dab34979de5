import Verif.Text
import Verif.ShardProps
/-
C50: text of hashes. C55: text of shard identifiers and block ids.
-/
set_option linter.unusedVariables false
set_option linter.unusedSimpArgs false
namespace Verif
open Text
open V248 (toDigit)

/-! ### Model -/

/-- The length of a text in bytes. -/
def utf8Len (t : List Char) : Nat := (t.map Char.utf8Size).sum

/-- `&s[n..]`: the text behind the first `n` bytes; no value (a panic) if that is inside a character. -/
def dropBytes : Nat → List Char → Option (List Char)
  | 0, t => some t
  | _, [] => none
  | n + 1, c :: t => if c.utf8Size ≤ n + 1 then dropBytes (n + 1 - c.utf8Size) t else none

inductive HashErr where
  | hex | base64 | length | panic
  deriving DecidableEq, Repr

namespace HashBytes

/-- `cell/mod.rs:676-684`, `827-844`: `Display`, `LowerHex` and `UpperHex` -/
def display (upper : Bool) (h : List Byte) : List Char := encodeHex (if upper then hexUpper else hexLower) h

def orErr {α : Type} (e : HashErr) : Option α → Except HashErr α
  | some v => .ok v
  | none => .error e

/-- `util.rs:137-155` `decode_base64_slice` into a zeroed array of 32 bytes: a shorter result leaves the rest
zero, a longer one is refused. -/
def decodeB64 (t : List Char) : Option (List Byte) :=
  match b64Decode b64std t with
  | some bs => if bs.length ≤ 32 then some (bs ++ List.replicate (32 - bs.length) 0) else none
  | none => none

/-- `cell/mod.rs:800-825` `FromStr` -/
def fromStr (t : List Char) : Except HashErr (List Byte) :=
  if utf8Len t = 64 then orErr .hex (decodeToSlice 32 t)
  else if utf8Len t = 66 then
    match dropBytes 2 t with
    | some r => orErr .hex (decodeToSlice 32 r)
    | none => .error .panic
  else if utf8Len t = 44 then orErr .base64 (decodeB64 t)
  else .error .length

end HashBytes

theorem utf8_pos (c : Char) : 1 ≤ c.utf8Size := Char.utf8Size_pos c

theorem toDigit_ascii {r : Nat} {c : Char} {n : Nat} (h : toDigit r c = some n) : c.utf8Size = 1 := by
  have hb : c.toNat ≤ 122 := by
    unfold V248.toDigit at h
    dsimp only at h
    by_cases h1 : '0'.toNat ≤ c.toNat ∧ c.toNat ≤ '9'.toNat
    · have := h1.2; have : '9'.toNat = 57 := rfl; omega
    · rw [if_neg h1] at h
      by_cases h2 : 'a'.toNat ≤ c.toNat ∧ c.toNat ≤ 'z'.toNat
      · have := h2.2; have : 'z'.toNat = 122 := rfl; omega
      · rw [if_neg h2] at h
        by_cases h3 : 'A'.toNat ≤ c.toNat ∧ c.toNat ≤ 'Z'.toNat
        · have := h3.2; have : 'Z'.toNat = 90 := rfl; omega
        · rw [if_neg h3] at h; cases h
  rw [Char.utf8Size_eq_one_iff]
  have : c.val.toNat = c.toNat := rfl
  rw [UInt32.le_iff_toNat_le, this]
  exact Nat.le_trans hb (by decide)

theorem HexOf_utf8 : ∀ {t : List Char} {bs : List Byte}, HexOf t bs → utf8Len t = 2 * bs.length
  | [], [], _ => rfl
  | a :: b :: t, x :: r, h => by
    have := HexOf_utf8 h.2.2
    unfold utf8Len at this ⊢
    rw [List.map_cons, List.map_cons, List.sum_cons, List.sum_cons, this, toDigit_ascii h.1, toDigit_ascii h.2.1, List.length_cons]; omega
  | [_], [], h => h.elim
  | [_], _ :: _, h => h.elim
  | [], _ :: _, h => h.elim
  | _ :: _ :: _, [], h => h.elim

theorem b64_ascii {c : Char} (h : c ∈ b64std ∨ c = '=') : c.utf8Size = 1 := by
  have : ∀ c ∈ '=' :: b64std, c.utf8Size = 1 := by decide
  apply this
  rcases h with h | h
  · exact List.mem_cons_of_mem _ h
  · rw [h]; exact List.mem_cons_self

theorem getD_mem_std {n : Nat} (h : n < 64) : b64std.getD n '?' ∈ b64std := by
  have hl : n < b64std.length := by rw [isAbc_std.1]; exact h
  rw [List.getD_eq_getElem?_getD, List.getElem?_eq_getElem hl]
  exact List.getElem_mem hl

theorem b64_utf8 : ∀ bs : List Byte, utf8Len (b64Encode b64std bs) = (b64Encode b64std bs).length := by
  have std : ∀ {n}, n < 64 → (b64std.getD n '?').utf8Size = 1 := fun h => b64_ascii (Or.inl (getD_mem_std h))
  have pad : ('=' : Char).utf8Size = 1 := by decide
  have go : ∀ k (bs : List Byte), bs.length ≤ k → utf8Len (b64Encode b64std bs) = (b64Encode b64std bs).length := by
    intro k
    induction k with
    | zero => intro bs h; cases bs with | nil => rfl | cons _ _ => simp at h
    | succ k ih =>
      intro bs h
      match bs with
      | [] => rfl
      | [a] =>
        have ha := a.isLt
        unfold utf8Len b64Encode
        simp only [List.map_cons, List.map_nil, List.sum_cons, List.sum_nil, pad]
        rw [std (by omega), std (by omega)]; rfl
      | [a, b] =>
        have ha := a.isLt
        have hb := b.isLt
        unfold utf8Len b64Encode
        simp only [List.map_cons, List.map_nil, List.sum_cons, List.sum_nil, pad]
        rw [std (by omega), std (by omega), std (by omega)]; rfl
      | a :: b :: c :: t =>
        have ha := a.isLt
        have hb := b.isLt
        have hc := c.isLt
        have iht := ih t (by simp at h; omega)
        unfold utf8Len at iht
        unfold utf8Len b64Encode
        simp only [List.map_cons, List.sum_cons, List.length_cons]
        rw [std (by omega), std (by omega), std (by omega), std (by omega), iht]; omega
  exact fun bs => go _ bs (Nat.le_refl _)

/-! ### C50 -/

namespace HashBytes

/-- C50: a hash is parsed back from each of its texts: hexadecimal in lower and upper case, with any prefix of two bytes
(such as `0x`), and base64. -/
theorem C50_round {h : List Byte} (hl : h.length = 32) (upper : Bool) :
    fromStr (display upper h) = .ok h ∧
    (∀ c d : Char, c.utf8Size = 1 → d.utf8Size = 1 → fromStr (c :: d :: display upper h) = .ok h) ∧
    fromStr (b64Encode b64std h) = .ok h := by
  have hx : HexOf (display upper h) h := by
    unfold display
    cases upper
    · exact (encodeHex_hexOf h).1
    · exact (encodeHex_hexOf h).2
  have hu : utf8Len (display upper h) = 64 := by rw [HexOf_utf8 hx, hl]
  have hd := (decodeToSlice_spec 32 _ _).2 ⟨hx, hl⟩
  refine ⟨?_, ?_, ?_⟩
  · unfold fromStr
    rw [if_pos hu, hd]; rfl
  · intro c d hc hd'
    have hu2 : utf8Len (c :: d :: display upper h) = 66 := by
      unfold utf8Len at hu ⊢
      rw [List.map_cons, List.map_cons, List.sum_cons, List.sum_cons, hu, hc, hd']
    unfold fromStr
    rw [if_neg (by omega), if_pos hu2]
    have e : dropBytes 2 (c :: d :: display upper h) = some (display upper h) := by
      unfold dropBytes
      rw [if_pos (by omega), hc]
      show dropBytes 1 _ = _
      unfold dropBytes
      rw [if_pos (by omega), hd']
      show dropBytes 0 _ = _
      unfold dropBytes
      rfl
    rw [e]
    dsimp only
    rw [hd]; rfl
  · have hu3 : utf8Len (b64Encode b64std h) = 44 := by rw [b64_utf8, b64Encode_length, hl]
    unfold fromStr
    rw [if_neg (by omega), if_neg (by omega), if_pos hu3]
    unfold decodeB64
    rw [b64_roundtrip isAbc_std]
    dsimp only
    rw [if_pos (by omega), hl]
    simp [orErr]

/-- C50: what parsing accepts: the hexadecimal digits of the result, possibly behind two bytes of any kind, or the base64
text of the result without zeros at its end, of 31 or 32 bytes. -/
theorem C50_accept {t : List Char} {h : List Byte} (e : fromStr t = .ok h) :
    h.length = 32 ∧ (HexOf t h ∨ (∃ p r, t = p ++ r ∧ utf8Len p = 2 ∧ HexOf r h) ∨
      ∃ bs, t = b64Encode b64std bs ∧ (bs.length = 31 ∧ h = bs ++ [0] ∨ bs.length = 32 ∧ h = bs)) := by
  have drop : ∀ n (t r : List Char), dropBytes n t = some r → ∃ p, t = p ++ r ∧ utf8Len p = n := by
    intro n
    induction n using Nat.strongRecOn with
    | _ n ih =>
      intro t r hd
      cases n with
      | zero =>
        have hd : some t = some r := by simpa [dropBytes] using hd
        injection hd with hd; subst hd; exact ⟨[], rfl, rfl⟩
      | succ n =>
        cases t with
        | nil => simp [dropBytes] at hd
        | cons c t =>
          unfold dropBytes at hd
          by_cases hc : c.utf8Size ≤ n + 1
          · rw [if_pos hc] at hd
            obtain ⟨p, e1, e2⟩ := ih (n + 1 - c.utf8Size) (by have := utf8_pos c; omega) t r hd
            refine ⟨c :: p, by rw [e1]; rfl, ?_⟩
            unfold utf8Len at e2 ⊢
            rw [List.map_cons, List.sum_cons, e2]; omega
          · rw [if_neg hc] at hd; cases hd
  unfold fromStr at e
  by_cases h1 : utf8Len t = 64
  · rw [if_pos h1] at e
    cases hd : decodeToSlice 32 t with
    | none => rw [hd] at e; cases e
    | some b =>
      rw [hd] at e
      injection e with e; subst e
      obtain ⟨a1, a2⟩ := (decodeToSlice_spec _ _ _).1 hd
      exact ⟨a2, Or.inl a1⟩
  · rw [if_neg h1] at e
    by_cases h2 : utf8Len t = 66
    · rw [if_pos h2] at e
      cases hdr : dropBytes 2 t with
      | none => rw [hdr] at e; cases e
      | some r =>
        rw [hdr] at e
        dsimp only at e
        cases hd : decodeToSlice 32 r with
        | none => rw [hd] at e; cases e
        | some b =>
          rw [hd] at e
          injection e with e; subst e
          obtain ⟨a1, a2⟩ := (decodeToSlice_spec _ _ _).1 hd
          obtain ⟨p, e1, e2⟩ := drop 2 t r hdr
          exact ⟨a2, Or.inr (Or.inl ⟨p, r, e1, e2, a1⟩)⟩
    · rw [if_neg h2] at e
      by_cases h3 : utf8Len t = 44
      · rw [if_pos h3] at e
        unfold decodeB64 at e
        cases hd : b64Decode b64std t with
        | none => rw [hd] at e; cases e
        | some bs =>
          rw [hd] at e
          dsimp only at e
          have ht := (b64_spec isAbc_std t bs).1 hd
          by_cases hle : bs.length ≤ 32
          · rw [if_pos hle] at e
            injection e with e
            subst e
            rw [ht, b64_utf8, b64Encode_length] at h3
            refine ⟨by simp; omega, Or.inr (Or.inr ⟨bs, ht, ?_⟩)⟩
            rcases (by omega : bs.length = 31 ∨ bs.length = 32) with h4 | h4
            · left; rw [h4]; exact ⟨rfl, rfl⟩
            · right; rw [h4]; exact ⟨rfl, by simp⟩
          · rw [if_neg hle] at e; cases e
      · rw [if_neg h3] at e; cases e

/-- C50, violated: parsing can panic, on a text of 66 bytes with a character across the second byte. -/
theorem C50_panic : fromStr ('a' :: 'é' :: List.replicate 63 '0') = .error .panic := by decide

/-- C50, violated: the base64 text of 31 bytes is accepted, with a zero appended, so two different texts of the
same form give one hash. -/
theorem C50_short_base64 : fromStr (b64Encode b64std (List.replicate 31 1)) = fromStr (b64Encode b64std (List.replicate 31 1 ++ [0])) ∧
    b64Encode b64std (List.replicate 31 1) ≠ b64Encode b64std (List.replicate 31 1 ++ [0]) ∧
    (fromStr (b64Encode b64std (List.replicate 31 1))).isOk = true := by
  refine ⟨by decide +kernel, by decide +kernel, by decide +kernel⟩

example : fromStr (display true (List.replicate 32 0xab)) = .ok (List.replicate 32 0xab) := by decide +kernel

end HashBytes

/-! ### C55 -/

namespace ShardIdent

/-- `block_id.rs:202-206` `Display` -/
def display (s : ShardIdent) : List Char := showInt s.workchain ++ ':' :: showHex16 s.pfx.toNat

/-- The checks on the first two parts, shared by `block_id.rs:503-526` and `45-67`. -/
def ofParts (a b : List Char) : Option ShardIdent :=
  match parseInt (2 ^ 31) a with
  | some wc =>
    match parseUint 16 (2 ^ 64 - 1) b with
    | some x => new wc (BitVec.ofNat 64 x)
    | none => none
  | none => none

/-- `block_id.rs:500-527` `FromStr`; which error is returned is not modelled -/
def fromStr (t : List Char) : Option ShardIdent :=
  match splitOn ':' t with
  | a :: b :: _ => ofParts a b
  | _ => none

theorem hex16_noSep (n : Nat) : ':' ∉ showHex16 n := digits_not_mem (parseDigits_hex16 n) (by decide)

theorem ofParts_display {s : ShardIdent} (hw : IsI32 s.workchain) (hn : new s.workchain s.pfx = some s) :
    ofParts (showInt s.workchain) (showHex16 s.pfx.toNat) = some s := by
  unfold IsI32 at hw
  unfold ofParts
  rw [parseInt_show (by omega) (by omega)]
  dsimp only
  rw [parseUint_plain (parseDigits_hex16 _) (by decide) (by have := s.pfx.isLt; omega)]
  dsimp only
  rw [BitVec.ofNat_toNat, BitVec.setWidth_eq, hn]

/-- C55: a shard identifier made by the checked constructor is parsed back from its text. -/
theorem C55_shard {w : Int} {x : BitVec 64} {s : ShardIdent} (hw : IsI32 w) (h : new w x = some s) :
    fromStr s.display = some s := by
  have e := (C46_new w x).2 s h
  subst e
  unfold fromStr display
  rw [splitOn_cons _ (showInt_noSep _), splitOn_single (hex16_noSep _)]
  exact ofParts_display hw h

/-- C55: whatever is parsed is a valid shard identifier, denoted by the first two parts of the text. -/
theorem C55_shard_accept {t : List Char} {s : ShardIdent} (h : fromStr t = some s) :
    ∃ a b n, (∃ rest, splitOn ':' t = a :: b :: rest) ∧ parseInt (2 ^ 31) a = some s.workchain ∧
      parseUint 16 (2 ^ 64 - 1) b = some n ∧ s.pfx = BitVec.ofNat 64 n ∧ new s.workchain s.pfx = some s ∧
      ∃ p, s.Is s.workchain p := by
  unfold fromStr at h
  cases hs : splitOn ':' t with
  | nil => rw [hs] at h; cases h
  | cons a r =>
    cases r with
    | nil => rw [hs] at h; cases h
    | cons b r =>
      rw [hs] at h
      have h : ofParts a b = some s := h
      unfold ofParts at h
      cases ha : parseInt (2 ^ 31) a with
      | none => rw [ha] at h; cases h
      | some wc =>
        rw [ha] at h
        dsimp only at h
        cases hb : parseUint 16 (2 ^ 64 - 1) b with
        | none => rw [hb] at h; cases h
        | some n =>
          rw [hb] at h
          dsimp only at h
          have e := (C46_new wc (BitVec.ofNat 64 n)).2 s h
          subst e
          obtain ⟨p, hp, _⟩ := (C46_new wc (BitVec.ofNat 64 n)).1.1 (by rw [h]; rfl)
          exact ⟨a, b, n, ⟨r, rfl⟩, ha, hb, rfl, h, p, rfl, hp⟩

/-- C55, violated: whatever follows a second separator is ignored by the parser of shard identifiers. -/
theorem C55_shard_trailing : fromStr "0:8000000000000000:this:is ignored".toList = some (newFull 0) := by decide +kernel

/-- C55, violated: shards obtained by splitting the masterchain have a text that is not parsed. -/
theorem C55_masterchain_child : ∃ l r, (newFull (-1)).split = some (l, r) ∧ fromStr l.display = none ∧ fromStr r.display = none :=
  ⟨⟨-1, 0x4000000000000000⟩, ⟨-1, 0xC000000000000000⟩, by decide, by decide +kernel, by decide +kernel⟩

namespace BlockId

/-- `block_id.rs:111-118` `Display` -/
def display (b : BlockId) : List Char :=
  b.shard.display ++ ':' :: (Nat.toDigits 10 b.seqno ++ ':' :: (HashBytes.display false b.rootHash ++ ':' :: HashBytes.display false b.fileHash))

/-- `block_id.rs:42-109` `FromStr`; which error is returned is not modelled -/
def fromStr (t : List Char) : Option BlockId :=
  if t = [] then none
  else
    match splitOn ':' t with
    | [a, b, c, d, e] =>
      match ofParts a b, parseUint 10 (2 ^ 32 - 1) c, decodeToSlice 32 d, decodeToSlice 32 e with
      | some s, some n, some r, some f => some ⟨s, n, r, f⟩
      | _, _, _, _ => none
    | _ => none

/-- C55: a block id is parsed back from its text. -/
theorem C55_block {b : BlockId} (hw : IsI32 b.shard.workchain) (hn : new b.shard.workchain b.shard.pfx = some b.shard)
    (hs : b.seqno < 2 ^ 32) (hr : b.rootHash.length = 32) (hf : b.fileHash.length = 32) : fromStr b.display = some b := by
  have hd : ∀ l, HexOf (HashBytes.display false l) l := fun l => (encodeHex_hexOf l).1
  have e1 : splitOn ':' b.display = [showInt b.shard.workchain, showHex16 b.shard.pfx.toNat, Nat.toDigits 10 b.seqno,
      HashBytes.display false b.rootHash, HashBytes.display false b.fileHash] := by
    unfold display ShardIdent.display
    rw [List.append_assoc, List.cons_append, splitOn_cons _ (showInt_noSep _)]
    rw [splitOn_cons _ (hex16_noSep _), splitOn_cons _ (digits_not_mem (parseDigits_dec _) (by decide)),
      splitOn_cons _ (hd _).noSep, splitOn_single (hd _).noSep]
  have e2 : b.display ≠ [] := by
    intro e; rw [e] at e1; simp [splitOn] at e1
  unfold fromStr
  rw [if_neg e2, e1]
  dsimp only
  rw [ofParts_display hw hn, parseUint_plain (parseDigits_dec _) (by decide) (by omega),
    (decodeToSlice_spec 32 _ _).2 ⟨hd b.rootHash, hr⟩, (decodeToSlice_spec 32 _ _).2 ⟨hd b.fileHash, hf⟩]

/-- C55: a text is a block id exactly if it has five parts that denote the components. -/
theorem C55_block_accept (t : List Char) (b : BlockId) : fromStr t = some b ↔
    ∃ p1 p2 p3 p4 p5, t = joinSep ':' [p1, p2, p3, p4, p5] ∧ (∀ p ∈ [p1, p2, p3, p4, p5], ':' ∉ p) ∧
      ofParts p1 p2 = some b.shard ∧ parseUint 10 (2 ^ 32 - 1) p3 = some b.seqno ∧
      HexOf p4 b.rootHash ∧ b.rootHash.length = 32 ∧ HexOf p5 b.fileHash ∧ b.fileHash.length = 32 := by
  unfold fromStr
  constructor
  · intro h
    by_cases h0 : t = []
    · rw [if_pos h0] at h; cases h
    · rw [if_neg h0] at h
      have hspec := splitOn_spec ':' t
      split at h
      · rename_i a b' c d e heq
        rw [heq] at hspec
        split at h
        · rename_i s n r f h1 h2 h3 h4
          injection h with h
          subst h
          obtain ⟨a1, a2⟩ := (decodeToSlice_spec _ _ _).1 h3
          obtain ⟨b1, b2⟩ := (decodeToSlice_spec _ _ _).1 h4
          exact ⟨a, b', c, d, e, hspec.1.symm, hspec.2, h1, h2, a1, a2, b1, b2⟩
        · cases h
      · cases h
  · rintro ⟨a, b', c, d, e, rfl, hno, h1, h2, a1, a2, b1, b2⟩
    have hs := splitOn_join (c := ':') (ps := [a, b', c, d, e]) (by simp) hno
    have h0 : joinSep ':' [a, b', c, d, e] ≠ [] := by
      intro e0; rw [e0] at hs; simp [splitOn] at hs
    rw [if_neg h0, hs]
    dsimp only
    rw [h1, h2, (decodeToSlice_spec 32 _ _).2 ⟨a1, a2⟩, (decodeToSlice_spec 32 _ _).2 ⟨b1, b2⟩]

example : (fromStr (display ⟨newFull (-1), 42, List.replicate 32 0x1f, List.replicate 32 0xa0⟩)).isSome = true := by decide +kernel

end BlockId
end ShardIdent
end Verif
