import Verif.AbiTextLemmas
/-!
# Texts of ABI types: the full form determines the type

A parser of the full form, used in proofs only: the code has none.
-/
set_option linter.unusedVariables false
set_option linter.unusedSimpArgs false
namespace Verif
namespace Abi

open Text

/-! ### What the parser of the short form accepts -/

theorem parseUint_le {radix max : Nat} {s : List Char} {n : Nat} (h : parseUint radix max s = some n) : n ≤ max := by
  unfold parseUint at h
  split at h
  · split at h
    · cases h; assumption
    · cases h
  · cases h

theorem orErr_inv {α : Type} {e : TyErr} {o : Option α} {a : α} (h : orErr e o = .ok a) : o = some a := by
  cases o with
  | none => cases h
  | some b => cases h; rfl

theorem map_inv {α β : Type} {f : α → β} {o : Option α} {b : β} (h : o.map f = some b) : ∃ a, o = some a ∧ b = f a := by
  cases o with
  | none => cases h
  | some a => cases h; exact ⟨a, rfl, rfl⟩

theorem emap_inv {α β : Type} {f : α → β} {o : Except TyErr α} {b : β} (h : o.map f = .ok b) : ∃ a, o = .ok a ∧ b = f a := by
  cases o with
  | error e => cases h
  | ok a => cases h; exact ⟨a, rfl, rfl⟩

theorem ebind_inv {α β : Type} {f : α → Except TyErr β} {o : Except TyErr α} {b : β} (h : o.bind f = .ok b) : ∃ a, o = .ok a ∧ f a = .ok b := by
  cases o with
  | error e => cases h
  | ok a => exact ⟨a, rfl, h⟩

theorem parseNonZero_inv {s : List Char} {n : Nat} (h : parseNonZero s = some n) : 1 ≤ n ∧ n < 2 ^ 8 := by
  unfold parseNonZero at h
  cases e : parseUint 10 255 s with
  | none => rw [e] at h; cases h
  | some m =>
    rw [e] at h
    have hm := parseUint_le e
    have h' : (if m = 0 then none else some m) = some n := h
    by_cases h0 : m = 0
    · rw [if_pos h0] at h'; cases h'
    · rw [if_neg h0] at h'
      cases h'
      exact ⟨by omega, by omega⟩

theorem ptype_ok {s : List Char} {k : PTy} (h : PTy.fromText s = .ok k) : k.Ok := by
  unfold PTy.fromText at h
  split at h
  · cases h; trivial
  split at h
  · cases h; trivial
  split at h
  · obtain ⟨n, e, rfl⟩ := map_inv (orErr_inv h)
    have := parseUint_le e
    show n < 2 ^ 16
    omega
  split at h
  · obtain ⟨n, e, rfl⟩ := map_inv (orErr_inv h)
    have := parseUint_le e
    show n < 2 ^ 16
    omega
  · cases h

theorem wordType_ok {s : List Char} {t : Ty} (h : wordType s = some (.ok t)) : t.Ok := by
  unfold wordType at h
  iterate 7
    split at h
    · cases h; trivial
  split at h
  · obtain ⟨n, e, rfl⟩ := map_inv (orErr_inv (Option.some.inj h))
    have := parseUint_le e
    show n < 2 ^ 16
    omega
  split at h
  · obtain ⟨n, e, rfl⟩ := map_inv (orErr_inv (Option.some.inj h))
    have := parseUint_le e
    show n < 2 ^ 16
    omega
  split at h
  · obtain ⟨n, e, rfl⟩ := map_inv (orErr_inv (Option.some.inj h))
    exact parseNonZero_inv e
  split at h
  · obtain ⟨n, e, rfl⟩ := map_inv (orErr_inv (Option.some.inj h))
    exact parseNonZero_inv e
  split at h
  · obtain ⟨n, e, rfl⟩ := map_inv (orErr_inv (Option.some.inj h))
    have := parseUint_le e
    show n < 2 ^ 64
    omega
  · cases h

theorem fromSimple_ok : ∀ (fuel : Nat) (s : List Char) (t : Ty), fromSimple fuel s = .ok t → t.Ok
  | 0, _, _, h => by rw [fromSimple] at h; cases h
  | k + 1, s, t, h => by
    have ih := fromSimple_ok k
    rw [fromSimple] at h
    split at h
    · split at h
      · cases h
      · split at h
        · obtain ⟨a, e, rfl⟩ := emap_inv h
          exact (ih _ a e : Ty.Ok a)
        · split at h
          · cases h
          · rename_i n en
            obtain ⟨a, e, rfl⟩ := emap_inv h
            have := parseUint_le en
            exact ⟨ih _ _ e, by omega⟩
    · split at h
      · rename_i r er
        subst h
        exact wordType_ok er
      split at h
      · split at h
        · cases h
        split at h
        · cases h
        · obtain ⟨k', ek, h2⟩ := ebind_inv h
          obtain ⟨a, e, rfl⟩ := emap_inv h2
          exact ⟨ptype_ok ek, ih _ _ e⟩
      split at h
      · split at h
        · cases h
        · obtain ⟨a, e, rfl⟩ := emap_inv h
          exact (ih _ a e : Ty.Ok a)
      split at h
      · split at h
        · cases h
        · obtain ⟨a, e, rfl⟩ := emap_inv h
          exact (ih _ a e : Ty.Ok a)
      · cases h

theorem set_ok (ts : Tys) (hts : ts.Ok) : ∀ (t : Ty), t.Ok → (t.setComponents ts).Ok
  | .tuple _, _ => hts
  | .array t, h => set_ok ts hts t h
  | .fixedArray t n, h => ⟨set_ok ts hts t h.1, h.2⟩
  | .map k t, h => ⟨h.1, set_ok ts hts t h.2⟩
  | .optional t, h => set_ok ts hts t h
  | .ref t, h => set_ok ts hts t h
  | .uint _, h | .int _, h | .varuint _, h | .varint _, h | .fixedBytes _, h | .bool, h | .cell, h | .address, h | .bytes, h | .string, h | .token, h => h

mutual
theorem fromField_ok : ∀ (f : Field) (x : String × Ty), fromField f = .ok x → x.2.Ok
  | .plain n s, x, h => by
    rw [fromField] at h
    obtain ⟨t, e, h2⟩ := ebind_inv h
    split at h2
    · cases h2
    · cases h2
      exact fromSimple_ok _ _ _ e
  | .composite n s cs, x, h => by
    have ih := fromFields_ok cs
    rw [fromField] at h
    obtain ⟨t, e, h2⟩ := ebind_inv h
    split at h2
    · obtain ⟨ts, e2, rfl⟩ := emap_inv h2
      exact set_ok ts (ih ts e2) t (fromSimple_ok _ _ _ e)
    · cases h2
theorem fromFields_ok : ∀ (fs : Fields) (ts : Tys), fromFields fs = .ok ts → ts.Ok
  | .nil, ts, h => by
    rw [fromFields] at h; cases h; trivial
  | .cons f r, ts, h => by
    have ih1 := fromField_ok f
    have ih2 := fromFields_ok r
    rw [fromFields] at h
    obtain ⟨x, e, h2⟩ := ebind_inv h
    obtain ⟨us, e2, rfl⟩ := emap_inv h2
    exact ⟨ih1 x e, ih2 us e2⟩
end

/-! ### Types without names -/

mutual
/-- The type with all names replaced by the empty name. -/
def Ty.bare : Ty → Ty
  | .tuple ts => .tuple ts.bare
  | .array t => .array t.bare
  | .fixedArray t n => .fixedArray t.bare n
  | .map k t => .map k t.bare
  | .optional t => .optional t.bare
  | .ref t => .ref t.bare
  | .uint n => .uint n
  | .int n => .int n
  | .varuint n => .varuint n
  | .varint n => .varint n
  | .fixedBytes n => .fixedBytes n
  | .bool => .bool
  | .cell => .cell
  | .address => .address
  | .bytes => .bytes
  | .string => .string
  | .token => .token
def Tys.bare : Tys → Tys
  | .nil => .nil
  | .cons _ t r => .cons "" t.bare r.bare
end

mutual
theorem same_bare : ∀ (a b : Ty), a.same b = true ↔ a.bare = b.bare
  | .tuple x, b => by
    have ih := same_bare_list x
    cases b <;> simp [Ty.same, Ty.bare, ih]
  | .array x, b => by
    have ih := same_bare x
    cases b <;> simp [Ty.same, Ty.bare, ih]
  | .fixedArray x n, b => by
    have ih := same_bare x
    cases b <;> simp [Ty.same, Ty.bare, ih]
  | .map k x, b => by
    have ih := same_bare x
    cases b <;> simp [Ty.same, Ty.bare, ih]
  | .optional x, b => by
    have ih := same_bare x
    cases b <;> simp [Ty.same, Ty.bare, ih]
  | .ref x, b => by
    have ih := same_bare x
    cases b <;> simp [Ty.same, Ty.bare, ih]
  | .uint _, b | .int _, b | .varuint _, b | .varint _, b | .fixedBytes _, b | .bool, b | .cell, b | .address, b | .bytes, b | .string, b | .token, b => by
    cases b <;> simp [Ty.same, Ty.bare]
theorem same_bare_list : ∀ (a b : Tys), a.same b = true ↔ a.bare = b.bare
  | .nil, b => by cases b <;> simp [Tys.same, Tys.bare]
  | .cons n t r, b => by
    have ih1 := same_bare t
    have ih2 := same_bare_list r
    cases b <;> simp [Tys.same, Tys.bare, ih1, ih2]
end

mutual
theorem bare_text : ∀ (t : Ty), t.bare.text = t.text
  | .tuple x => by
    have ih := bare_texts x
    show '(' :: (joinSep ',' x.bare.texts ++ [')']) = '(' :: (joinSep ',' x.texts ++ [')'])
    rw [ih]
  | .array x => by
    have ih := bare_text x
    show x.bare.text ++ ['[', ']'] = x.text ++ ['[', ']']
    rw [ih]
  | .fixedArray x n => by
    have ih := bare_text x
    show x.bare.text ++ '[' :: (dec n ++ [']']) = x.text ++ '[' :: (dec n ++ [']'])
    rw [ih]
  | .map k x => by
    have ih := bare_text x
    show "map(".toList ++ (k.text ++ ',' :: (x.bare.text ++ [')'])) = "map(".toList ++ (k.text ++ ',' :: (x.text ++ [')']))
    rw [ih]
  | .optional x => by
    have ih := bare_text x
    show "optional(".toList ++ (x.bare.text ++ [')']) = "optional(".toList ++ (x.text ++ [')'])
    rw [ih]
  | .ref x => by
    have ih := bare_text x
    show "ref(".toList ++ (x.bare.text ++ [')']) = "ref(".toList ++ (x.text ++ [')'])
    rw [ih]
  | .uint _ | .int _ | .varuint _ | .varint _ | .fixedBytes _ | .bool | .cell | .address | .bytes | .string | .token => rfl
theorem bare_texts : ∀ (ts : Tys), ts.bare.texts = ts.texts
  | .nil => rfl
  | .cons n t r => by
    have ih1 := bare_text t
    have ih2 := bare_texts r
    show t.bare.text :: r.bare.texts = t.text :: r.texts
    rw [ih1, ih2]
end

/-! ### A parser of the full form -/

/-- The suffixes of arrays after a type. -/
def suffixes : Nat → Ty → List Char → Ty × List Char
  | 0, t, s => (t, s)
  | k + 1, t, s =>
    match s with
    | '[' :: s' =>
      match splitOnce ']' s' with
      | some ([], b) => suffixes k (.array t) b
      | some (a, b) => match parseUint 10 (2 ^ 64 - 1) a with
        | some n => suffixes k (.fixedArray t n) b
        | none => (t, s)
      | none => (t, s)
    | _ => (t, s)

/-- A closing parenthesis after a type. -/
def closed (f : Ty → Ty) (x : Ty × List Char) : Option (Ty × List Char) :=
  match x.2 with
  | ')' :: r => some (suffixes r.length (f x.1) r)
  | _ => none

/-- What follows a word: the word is a type, or the keyword of a type with arguments. -/
def afterWord (parse : List Char → Option (Ty × List Char)) (items : List Char → Option (Tys × List Char)) (w r : List Char) : Option (Ty × List Char) :=
  match r with
  | '(' :: r' =>
    if w = [] then (items r').bind fun x => match x.2 with
      | ')' :: r2 => some (suffixes r2.length (.tuple x.1) r2)
      | _ => none
    else if w = "map".toList then match r'.dropWhile Char.isAlphanum with
      | ',' :: r2 => match PTy.fromText (r'.takeWhile Char.isAlphanum) with
        | .ok k => (parse r2).bind (closed (.map k))
        | .error _ => none
      | _ => none
    else if w = "optional".toList then (parse r').bind (closed .optional)
    else if w = "ref".toList then (parse r').bind (closed .ref)
    else none
  | _ => match wordType w with
    | some (.ok t) => some (suffixes r.length t r)
    | _ => none

mutual
def parseFull : Nat → List Char → Option (Ty × List Char)
  | 0, _ => none
  | k + 1, s => afterWord (parseFull k) (parseItems k) (s.takeWhile Char.isAlphanum) (s.dropWhile Char.isAlphanum)
def parseItems : Nat → List Char → Option (Tys × List Char)
  | 0, _ => none
  | k + 1, s =>
    match s with
    | ')' :: _ => some (.nil, s)
    | _ => (parseFull k s).bind fun x => match x.2 with
      | ',' :: r => (parseItems k r).map fun y => (.cons "" x.1 y.1, y.2)
      | _ => some (.cons "" x.1 .nil, x.2)
end

/-- The text does not go on with a letter or a digit. -/
def Breaks (r : List Char) : Prop := ∀ c, r.head? = some c → c.isAlphanum = false

theorem word_take {w r : List Char} (hw : Word w) (hr : Breaks r) : (w ++ r).takeWhile Char.isAlphanum = w ∧ (w ++ r).dropWhile Char.isAlphanum = r := by
  constructor
  · rw [List.takeWhile_append_of_pos hw]
    cases r with
    | nil => simp
    | cons c r => simp [List.takeWhile, hr c rfl]
  · rw [List.dropWhile_append_of_pos hw]
    cases r with
    | nil => simp
    | cons c r => simp [List.dropWhile, hr c rfl]

theorem suffixes_fuel : ∀ (k : Nat) (t : Ty) (s : List Char), s.length ≤ k → suffixes k t s = suffixes s.length t s
  | 0, t, s, h => by
    have : s.length = 0 := by omega
    rw [this]
  | k + 1, t, s, h => by
    have hs : ∀ (c : Char) (s a b : List Char), splitOnce c s = some (a, b) → b.length < s.length := by
      intro c s
      induction s with
      | nil => intro a b e; cases e
      | cons x s ih =>
        intro a b e
        unfold splitOnce at e
        by_cases hx : x = c
        · rw [if_pos hx] at e; cases e; simp
        · rw [if_neg hx] at e
          obtain ⟨p, e1, e2⟩ := map_inv e
          cases e2
          have := ih p.1 p.2 e1
          simp only [List.length_cons]; omega
    cases s with
    | nil => simp [suffixes]
    | cons c s' =>
      show suffixes (k + 1) t (c :: s') = suffixes (s'.length + 1) t (c :: s')
      have hl : s'.length ≤ k := by simpa using h
      by_cases hc : c = '['
      · subst hc
        rw [suffixes, suffixes]
        cases e : splitOnce ']' s' with
        | none => rfl
        | some p =>
          obtain ⟨a, b⟩ := p
          have hb := hs _ _ _ _ e
          have ih1 := fun t => suffixes_fuel k t b (by omega)
          cases a with
          | nil =>
            dsimp only
            rw [ih1, ← suffixes_fuel s'.length _ b (by omega)]
          | cons x a =>
            dsimp only
            cases parseUint 10 (2 ^ 64 - 1) (x :: a) with
            | none => rfl
            | some n =>
              dsimp only
              rw [ih1, ← suffixes_fuel s'.length _ b (by omega)]
      · have hne : ∀ m, suffixes (m + 1) t (c :: s') = (t, c :: s') := by
          intro m
          rw [suffixes]
          intro s2 e; injection e with e1 e2; exact absurd e1 hc
        rw [hne, hne]
  termination_by k t s => k
  decreasing_by all_goals simp_wf <;> omega

theorem breaks_cons {c : Char} {r : List Char} (h : c.isAlphanum = false) : Breaks (c :: r) := by
  intro d e
  cases e
  exact h

theorem afterWord_word {parse : List Char → Option (Ty × List Char)} {items : List Char → Option (Tys × List Char)} {w r : List Char} {t : Ty} (h : wordType w = some (.ok t))
    (hr : ∀ r', r ≠ '(' :: r') : afterWord parse items w r = some (suffixes r.length t r) := by
  unfold afterWord
  split
  · rename_i r'; exact absurd rfl (hr r')
  · rw [h]

/-- The text goes on with neither a letter, a digit nor an opening parenthesis. -/
def Ends (r : List Char) : Prop := Breaks r ∧ ∀ r', r ≠ '(' :: r'

theorem ends_cons {c : Char} {r : List Char} (h : c.isAlphanum = false) (h2 : c ≠ '(') : Ends (c :: r) :=
  ⟨breaks_cons h, fun r' e => by injection e with e1 e2; exact h2 e1⟩

theorem leaf_full {t : Ty} (hl : t.leaf = true) (h : t.Ok) {k : Nat} {r : List Char} (hr : Ends r) : parseFull (k + 1) (t.text ++ r) = some (suffixes r.length t r) := by
  rw [parseFull, (word_take (leaf_word hl) hr.1).1, (word_take (leaf_word hl) hr.1).2]
  exact afterWord_word (leaf_parse hl h) hr.2

/-- The first character of a text. -/
theorem text_head : ∀ (t : Ty), ∃ c r, t.text = c :: r ∧ c ≠ ')'
  | .tuple x => ⟨_, _, rfl, by decide⟩
  | .array x => by
    obtain ⟨c, r, e, h⟩ := text_head x
    refine ⟨c, r ++ ['[', ']'], ?_, h⟩
    show x.text ++ ['[', ']'] = _
    rw [e]; rfl
  | .fixedArray x n => by
    obtain ⟨c, r, e, h⟩ := text_head x
    refine ⟨c, r ++ '[' :: (dec n ++ [']']), ?_, h⟩
    show x.text ++ '[' :: (dec n ++ [']']) = _
    rw [e]; rfl
  | .map k x => ⟨_, _, rfl, by decide⟩
  | .optional x => ⟨_, _, rfl, by decide⟩
  | .ref x => ⟨_, _, rfl, by decide⟩
  | .uint _ | .int _ | .varuint _ | .varint _ | .fixedBytes _ | .bool | .cell | .address | .bytes | .string | .token => ⟨_, _, rfl, by decide⟩

theorem full_paren {k : Nat} {w r : List Char} (hw : Word w) : parseFull (k + 1) (w ++ '(' :: r) = afterWord (parseFull k) (parseItems k) w ('(' :: r) := by
  rw [parseFull, (word_take hw (breaks_cons (by decide))).1, (word_take hw (breaks_cons (by decide))).2]

theorem suffixes_array {t : Ty} {r : List Char} : suffixes ('[' :: ']' :: r).length t ('[' :: ']' :: r) = suffixes r.length (.array t) r := by
  show suffixes (r.length + 1 + 1) t ('[' :: ']' :: r) = _
  have e : splitOnce ']' (']' :: r) = some ([], r) := splitOnce_app (a := []) (by simp)
  rw [suffixes, e]
  dsimp only
  exact suffixes_fuel _ _ _ (by omega)

theorem suffixes_fixed {t : Ty} {n : Nat} {r : List Char} (h : n < 2 ^ 64) :
    suffixes ('[' :: (dec n ++ ']' :: r)).length t ('[' :: (dec n ++ ']' :: r)) = suffixes r.length (.fixedArray t n) r := by
  show suffixes ((dec n ++ ']' :: r).length + 1) t ('[' :: (dec n ++ ']' :: r)) = _
  have e : splitOnce ']' (dec n ++ ']' :: r) = some (dec n, r) := splitOnce_app (word_not (word_dec n) (by decide))
  have hp := parse_dec (max := 2 ^ 64 - 1) (n := n) (by omega)
  rw [suffixes, e]
  have hn := dec_ne n
  cases hd : dec n with
  | nil => exact absurd hd hn
  | cons c d =>
    rw [hd] at hp
    dsimp only
    rw [hp]
    dsimp only
    refine suffixes_fuel _ _ _ ?_
    simp only [List.length_append, List.length_cons]; omega

theorem suffixes_stop {t : Ty} {r : List Char} (h : ∀ r', r ≠ '[' :: r') (k : Nat) : suffixes k t r = (t, r) := by
  cases k with
  | zero => rfl
  | succ k =>
    rw [suffixes]
    intro s e
    exact absurd e (h s)

theorem parseItems_cons {k : Nat} {c : Char} {s : List Char} (h : c ≠ ')') : parseItems (k + 1) (c :: s) = (parseFull k (c :: s)).bind fun x => match x.2 with
      | ',' :: r => (parseItems k r).map fun y => (Tys.cons "" x.1 y.1, y.2)
      | _ => some (.cons "" x.1 .nil, x.2) := by
  rw [parseItems]
  intro s2 e
  injection e with e1 e2
  exact absurd e1 h

section
variable {parse : List Char → Option (Ty × List Char)} {items : List Char → Option (Tys × List Char)}

theorem after_tuple {s r : List Char} {ts : Tys} (h : items s = some (ts, ')' :: r)) : afterWord parse items [] ('(' :: s) = some (suffixes r.length (.tuple ts) r) := by
  show (items s).bind _ = _
  rw [h]
  rfl

theorem closed_ok {f : Ty → Ty} {t : Ty} {r : List Char} : closed f (t, ')' :: r) = some (suffixes r.length (f t) r) := rfl

theorem after_map {p : PTy} {s r : List Char} {t : Ty} (hp : p.Ok) (h : parse s = some (t, ')' :: r)) :
    afterWord parse items "map".toList ('(' :: (p.text ++ ',' :: s)) = some (suffixes r.length (.map p t) r) := by
  have hb : Breaks (',' :: s) := breaks_cons (by decide)
  have key : ∀ (w d : List Char), d = ',' :: s → PTy.fromText w = .ok p → (match d with
      | ',' :: r2 => match PTy.fromText w with
        | .ok k => (parse r2).bind (closed (.map k))
        | .error _ => none
      | _ => none) = some (suffixes r.length (.map p t) r) := by
    intro w d e1 e2
    subst e1
    show (match PTy.fromText w with
        | .ok k => (parse s).bind (closed (.map k))
        | .error _ => none) = _
    rw [e2]
    show (parse s).bind _ = _
    rw [h]
    rfl
  exact key _ _ (word_take (ptext_word p) hb).2 (by rw [(word_take (ptext_word p) hb).1]; exact ptext_parse p hp)

theorem after_optional {s r : List Char} {t : Ty} (h : parse s = some (t, ')' :: r)) :
    afterWord parse items "optional".toList ('(' :: s) = some (suffixes r.length (.optional t) r) := by
  show (parse s).bind _ = _
  rw [h]
  rfl

theorem after_ref {s r : List Char} {t : Ty} (h : parse s = some (t, ')' :: r)) :
    afterWord parse items "ref".toList ('(' :: s) = some (suffixes r.length (.ref t) r) := by
  show (parse s).bind _ = _
  rw [h]
  rfl
end

mutual
theorem full_parse : ∀ (t : Ty) (k : Nat) (r : List Char), t.Ok → t.text.length < k → Ends r → parseFull k (t.text ++ r) = some (suffixes r.length t.bare r)
  | _, 0, _, _, hk, _ => absurd hk (Nat.not_lt_zero _)
  | .tuple ts, k + 1, r, h, hk, hr => by
    have ih := items_parse ts k (')' :: r) h (by
      replace hk : ('(' :: (joinSep ',' ts.texts ++ [')'])).length < k + 1 := hk
      simp only [List.length_cons, List.length_append, List.length_nil] at hk; omega) ⟨r, rfl⟩
    have e : (Ty.tuple ts).text ++ r = [] ++ '(' :: (joinSep ',' ts.texts ++ ')' :: r) := by
      show ('(' :: (joinSep ',' ts.texts ++ [')'])) ++ r = _
      simp
    rw [e, full_paren (by unfold Word; decide)]
    exact after_tuple ih
  | .array t, k + 1, r, h, hk, hr => by
    have ih := full_parse t (k + 1) ('[' :: ']' :: r) h (by
      replace hk : (t.text ++ ['[', ']']).length < k + 1 := hk
      simp only [List.length_cons, List.length_append, List.length_nil] at hk; omega) (ends_cons (by decide) (by decide))
    have e : (Ty.array t).text ++ r = t.text ++ '[' :: ']' :: r := by
      show (t.text ++ ['[', ']']) ++ r = _
      simp
    rw [e, ih, suffixes_array]
    rfl
  | .fixedArray t n, k + 1, r, h, hk, hr => by
    have ih := full_parse t (k + 1) ('[' :: (dec n ++ ']' :: r)) h.1 (by
      replace hk : (t.text ++ '[' :: (dec n ++ [']'])).length < k + 1 := hk
      simp only [List.length_cons, List.length_append, List.length_nil] at hk; omega) (ends_cons (by decide) (by decide))
    have e : (Ty.fixedArray t n).text ++ r = t.text ++ '[' :: (dec n ++ ']' :: r) := by
      show (t.text ++ '[' :: (dec n ++ [']'])) ++ r = _
      simp
    rw [e, ih, suffixes_fixed h.2]
    rfl
  | .map p t, k + 1, r, h, hk, hr => by
    have ih := full_parse t k (')' :: r) h.2 (by
      replace hk : ("map(".toList ++ (p.text ++ ',' :: (t.text ++ [')']))).length < k + 1 := hk
      simp only [List.length_cons, List.length_append, List.length_nil] at hk; omega) (ends_cons (by decide) (by decide))
    have e : (Ty.map p t).text ++ r = "map".toList ++ '(' :: (p.text ++ ',' :: (t.text ++ ')' :: r)) := by
      show ("map(".toList ++ (p.text ++ ',' :: (t.text ++ [')']))) ++ r = _
      simp
    rw [suffixes_stop (by intro r' e; cases e)] at ih
    rw [e, full_paren (by unfold Word; decide)]
    exact after_map h.1 ih
  | .optional t, k + 1, r, h, hk, hr => by
    have ih := full_parse t k (')' :: r) h (by
      replace hk : ("optional(".toList ++ (t.text ++ [')'])).length < k + 1 := hk
      simp only [List.length_cons, List.length_append, List.length_nil] at hk; omega) (ends_cons (by decide) (by decide))
    have e : (Ty.optional t).text ++ r = "optional".toList ++ '(' :: (t.text ++ ')' :: r) := by
      show ("optional(".toList ++ (t.text ++ [')'])) ++ r = _
      simp
    rw [suffixes_stop (by intro r' e; cases e)] at ih
    rw [e, full_paren (by unfold Word; decide)]
    exact after_optional ih
  | .ref t, k + 1, r, h, hk, hr => by
    have ih := full_parse t k (')' :: r) h (by
      replace hk : ("ref(".toList ++ (t.text ++ [')'])).length < k + 1 := hk
      simp only [List.length_cons, List.length_append, List.length_nil] at hk; omega) (ends_cons (by decide) (by decide))
    have e : (Ty.ref t).text ++ r = "ref".toList ++ '(' :: (t.text ++ ')' :: r) := by
      show ("ref(".toList ++ (t.text ++ [')'])) ++ r = _
      simp
    rw [suffixes_stop (by intro r' e; cases e)] at ih
    rw [e, full_paren (by unfold Word; decide)]
    exact after_ref ih
  | .uint n, k + 1, r, h, hk, hr => leaf_full (t := .uint n) rfl h hr
  | .int n, k + 1, r, h, hk, hr => leaf_full (t := .int n) rfl h hr
  | .varuint n, k + 1, r, h, hk, hr => leaf_full (t := .varuint n) rfl h hr
  | .varint n, k + 1, r, h, hk, hr => leaf_full (t := .varint n) rfl h hr
  | .fixedBytes n, k + 1, r, h, hk, hr => leaf_full (t := .fixedBytes n) rfl h hr
  | .bool, k + 1, r, h, hk, hr => leaf_full (t := .bool) rfl h hr
  | .cell, k + 1, r, h, hk, hr => leaf_full (t := .cell) rfl h hr
  | .address, k + 1, r, h, hk, hr => leaf_full (t := .address) rfl h hr
  | .bytes, k + 1, r, h, hk, hr => leaf_full (t := .bytes) rfl h hr
  | .string, k + 1, r, h, hk, hr => leaf_full (t := .string) rfl h hr
  | .token, k + 1, r, h, hk, hr => leaf_full (t := .token) rfl h hr
  termination_by t k r => (sizeOf t)
theorem items_parse : ∀ (ts : Tys) (k : Nat) (r : List Char), ts.Ok → (joinSep ',' ts.texts).length + 1 < k → (∃ r', r = ')' :: r') →
    parseItems k (joinSep ',' ts.texts ++ r) = some (ts.bare, r)
  | _, 0, _, _, hk, _ => absurd hk (by omega)
  | .nil, k + 1, r, h, hk, ⟨r', hr⟩ => by
    subst hr
    show parseItems (k + 1) (')' :: r') = _
    rw [parseItems]
    rfl
  | .cons n t .nil, k + 1, r, h, hk, ⟨r', hr⟩ => by
    subst hr
    replace hk : t.text.length + 1 < k + 1 := hk
    have ih := full_parse t k (')' :: r') h.1 (by omega) (ends_cons (by decide) (by decide))
    rw [suffixes_stop (by intro r' e; cases e)] at ih
    obtain ⟨c, d, e, hc⟩ := text_head t
    show parseItems (k + 1) (t.text ++ ')' :: r') = _
    rw [e] at ih ⊢
    rw [List.cons_append] at ih ⊢
    rw [parseItems_cons hc, ih]
    rfl
  | .cons n t (.cons m u q), k + 1, r, h, hk, ⟨r', hr⟩ => by
    subst hr
    have ej : joinSep ',' (Tys.cons n t (.cons m u q)).texts = t.text ++ ',' :: joinSep ',' (Tys.cons m u q).texts := rfl
    rw [ej] at hk ⊢
    simp only [List.length_append, List.length_cons] at hk
    have ih1 := full_parse t k (',' :: (joinSep ',' (Tys.cons m u q).texts ++ ')' :: r')) h.1 (by omega) (ends_cons (by decide) (by decide))
    have ih2 := items_parse (.cons m u q) k (')' :: r') h.2 (by omega) ⟨r', rfl⟩
    rw [suffixes_stop (by intro r' e; cases e)] at ih1
    obtain ⟨c, d, e, hc⟩ := text_head t
    rw [List.append_assoc, List.cons_append]
    rw [e] at ih1 ⊢
    rw [List.cons_append] at ih1 ⊢
    rw [parseItems_cons hc, ih1]
    show (parseItems k (joinSep ',' (Tys.cons m u q).texts ++ ')' :: r')).map _ = _
    rw [ih2]
    rfl
  termination_by ts k r => (sizeOf ts)
end

/-- The full form determines the type, up to names. -/
theorem text_inj {a b : Ty} (ha : a.Ok) (hb : b.Ok) (h : a.text = b.text) : a.bare = b.bare := by
  have h1 := full_parse a (a.text.length + 1) [] ha (Nat.lt_succ_self _) ⟨(by intro c e; cases e), (by intro r e; cases e)⟩
  have h2 := full_parse b (b.text.length + 1) [] hb (Nat.lt_succ_self _) ⟨(by intro c e; cases e), (by intro r e; cases e)⟩
  rw [h, h2] at h1
  injection h1 with h3
  injection h3 with h4
  exact h4.symm

/-- A list of types up to a closing parenthesis. -/
theorem texts_inj {a b : Tys} {r s : List Char} (ha : a.Ok) (hb : b.Ok) (h : joinSep ',' a.texts ++ ')' :: r = joinSep ',' b.texts ++ ')' :: s) : a.bare = b.bare ∧ r = s := by
  have h1 := items_parse a ((joinSep ',' a.texts).length + (joinSep ',' b.texts).length + 2) _ ha (by omega) ⟨r, rfl⟩
  have h2 := items_parse b ((joinSep ',' a.texts).length + (joinSep ',' b.texts).length + 2) _ hb (by omega) ⟨s, rfl⟩
  rw [h, h2] at h1
  injection h1 with h3
  injection h3 with h4 h5
  injection h5 with h6 h7
  exact ⟨h4.symm, h7.symm⟩

/-! ### Headers -/

theorem hdr_word (h : Hdr) : Word h.text := by cases h <;> (unfold Word; decide)

theorem hdr_inj {a b : Hdr} (h : a.text = b.text) : a = b := by
  cases a <;> cases b <;> first | rfl | (exact absurd h (by decide))

theorem hdr_not_type (h : Hdr) : wordType h.text = none := by cases h <;> decide

/-- What follows the first of the joined parts. -/
theorem join_cons (c : Char) (a : List Char) (l : List (List Char)) (r : List Char) :
    joinSep c (a :: l) ++ r = a ++ ((if l = [] then [] else c :: joinSep c l) ++ r) := by
  cases l with
  | nil => simp [joinSep]
  | cons b l => simp [joinSep]

theorem join_rest_ends {l : List (List Char)} {r : List Char} : Ends ((if l = [] then [] else ',' :: joinSep ',' l) ++ ')' :: r) := by
  by_cases h : l = []
  · rw [if_pos h]; exact ends_cons (by decide) (by decide)
  · rw [if_neg h]; exact ends_cons (by decide) (by decide)

/-- No list of types reads like a list that begins with a header. -/
theorem header_no_items {h : Hdr} {x : List Char} (hx : Ends x) : ∀ k, parseItems k (h.text ++ x) = none := by
  intro k
  cases k with
  | zero => rfl
  | succ k =>
    have hf : parseFull k (h.text ++ x) = none := by
      cases k with
      | zero => rfl
      | succ k =>
        rw [parseFull, (word_take (hdr_word h) hx.1).1, (word_take (hdr_word h) hx.1).2]
        unfold afterWord
        split
        · rename_i r'; exact absurd rfl (hx.2 r')
        · rw [hdr_not_type]
    have : ∃ c d, h.text ++ x = c :: d ∧ c ≠ ')' := by cases h <;> exact ⟨_, _, rfl, by decide⟩
    obtain ⟨c, d, e, hc⟩ := this
    rw [e] at hf ⊢
    rw [parseItems_cons hc, hf]
    rfl

theorem headed_inj {a b : Tys} (ha : a.Ok) (hb : b.Ok) : ∀ (hs gs : List Hdr) {r s : List Char},
    joinSep ',' (hs.map Hdr.text ++ a.texts) ++ ')' :: r = joinSep ',' (gs.map Hdr.text ++ b.texts) ++ ')' :: s → hs = gs ∧ a.bare = b.bare ∧ r = s
  | [], [], r, s, h => by
    obtain ⟨h1, h2⟩ := texts_inj ha hb h
    exact ⟨rfl, h1, h2⟩
  | [], g :: gs, r, s, h => by
    exfalso
    have h1 := items_parse a ((joinSep ',' a.texts).length + 2) _ ha (by omega) ⟨r, rfl⟩
    rw [List.map_cons, List.cons_append, join_cons] at h
    have h2 := header_no_items (h := g) (join_rest_ends (l := gs.map Hdr.text ++ b.texts) (r := s)) ((joinSep ',' a.texts).length + 2)
    rw [← h] at h2
    rw [show ([] : List Hdr).map Hdr.text ++ a.texts = a.texts from rfl, h1] at h2
    cases h2
  | g :: gs, [], r, s, h => by
    exfalso
    have h1 := items_parse b ((joinSep ',' b.texts).length + 2) _ hb (by omega) ⟨s, rfl⟩
    rw [List.map_cons, List.cons_append, join_cons] at h
    have h2 := header_no_items (h := g) (join_rest_ends (l := gs.map Hdr.text ++ a.texts) (r := r)) ((joinSep ',' b.texts).length + 2)
    rw [h] at h2
    rw [show ([] : List Hdr).map Hdr.text ++ b.texts = b.texts from rfl, h1] at h2
    cases h2
  | g :: gs, f :: fs, r, s, h => by
    rw [List.map_cons, List.cons_append, join_cons, List.map_cons, List.cons_append, join_cons] at h
    have eA := word_take (hdr_word g) (join_rest_ends (l := gs.map Hdr.text ++ a.texts) (r := r)).1
    have eB := word_take (hdr_word f) (join_rest_ends (l := fs.map Hdr.text ++ b.texts) (r := s)).1
    rw [h] at eA
    have e1 : g = f := hdr_inj (eA.1.symm.trans eB.1)
    have e2 := eA.2.symm.trans eB.2
    have key : joinSep ',' (gs.map Hdr.text ++ a.texts) ++ ')' :: r = joinSep ',' (fs.map Hdr.text ++ b.texts) ++ ')' :: s := by
      by_cases hl : gs.map Hdr.text ++ a.texts = []
      · by_cases hm : fs.map Hdr.text ++ b.texts = []
        · rw [if_pos hl, if_pos hm] at e2
          rw [hl, hm]; exact e2
        · rw [if_pos hl, if_neg hm] at e2
          exact absurd (List.head_eq_of_cons_eq e2) (by decide)
      · by_cases hm : fs.map Hdr.text ++ b.texts = []
        · rw [if_neg hl, if_pos hm] at e2
          exact absurd (List.head_eq_of_cons_eq e2) (by decide)
        · rw [if_neg hl, if_neg hm] at e2
          exact (List.tail_eq_of_cons_eq e2)
    obtain ⟨i1, i2, i3⟩ := headed_inj ha hb gs fs key
    exact ⟨by rw [e1, i1], i2, i3⟩

/-- A name before its first opening parenthesis. -/
theorem name_split {n m r s : List Char} (hn : '(' ∉ n) (hm : '(' ∉ m) (h : n ++ '(' :: r = m ++ '(' :: s) : n = m ∧ r = s := by
  have h1 := splitOnce_app (b := r) hn
  rw [h, splitOnce_app hm] at h1
  injection h1 with h2
  injection h2 with h3 h4
  exact ⟨h3.symm, h4.symm⟩

theorem dec_inj {n m : Nat} (h : dec n = dec m) : n = m := by
  have h1 := parseDigits_dec n
  rw [show Nat.toDigits 10 n = Nat.toDigits 10 m from h, parseDigits_dec m] at h1
  exact (Option.some.inj h1).symm

end Abi
end Verif
