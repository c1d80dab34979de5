import Verif.AbiTextFull
/-!
# C76: names of ABI types and signatures

A type that is written into a contract description is read back, whatever the nesting of its components; the full form of types, and with it the signatures that ids of
functions and events are computed from, tell apart exactly what `WithoutName` tells apart.
-/
set_option linter.unusedVariables false
namespace Verif
namespace Abi

open Text

/-! ### Descriptions -/

/-- A named type comes back from its description. -/
theorem C76_description {name : String} {t : Ty} (h : t.Ok) : fromField (toField name t) = .ok (name, t) := fromField_of h (fields_parse t h)

/-- Whatever description is accepted, the type read from it is written in a form that is read back as the same type. -/
theorem C76_accepted {f : Field} {name : String} {t : Ty} (h : fromField f = .ok (name, t)) : t.Ok ∧ fromField (toField name t) = .ok (name, t) :=
  ⟨fromField_ok f _ h, C76_description (fromField_ok f _ h)⟩

/-- Key types of maps, headers and versions come back from their texts. -/
theorem C76_small_texts : (∀ k : PTy, k.Ok → PTy.fromText k.text = .ok k) ∧ (∀ h : Hdr, Hdr.fromText h.text = .ok h) ∧
    ∀ v : Ver, v.major < 256 → v.minor < 256 → Ver.fromText v.text = some v := by
  refine ⟨ptext_parse, fun h => by cases h <;> rfl, fun v h1 h2 => ?_⟩
  unfold Ver.fromText Ver.text
  rw [splitOnce_app (word_not (word_dec _) (by decide))]
  dsimp only
  rw [parse_dec (by omega)]
  show (parseUint 10 255 (dec v.minor)).map _ = _
  rw [parse_dec (by omega)]
  rfl

/-! ### Signatures -/

/-- Two types have the same full form exactly if they differ in names of tuple items only. -/
theorem C76_text {a b : Ty} (ha : a.Ok) (hb : b.Ok) : a.text = b.text ↔ a.same b = true := by
  rw [same_bare]
  constructor
  · exact text_inj ha hb
  · intro h
    rw [← bare_text a, ← bare_text b, h]

theorem texts_of_same {a b : Tys} (h : a.same b = true) : a.texts = b.texts := by
  rw [same_bare_list] at h
  rw [← bare_texts a, ← bare_texts b, h]

/-- The signature of a function determines its name, its types, the major version and, in the first version, the headers; and nothing else goes into it. -/
theorem C76_function {v w : Ver} {n m : List Char} {hs gs : List Hdr} {i j o p : Tys} (hn : '(' ∉ n) (hm : '(' ∉ m) (hi : i.Ok) (hj : j.Ok) (ho : o.Ok) (hp : p.Ok) :
    funcSignature v n hs i o = funcSignature w m gs j p ↔
      n = m ∧ v.major = w.major ∧ (v.major = 1 → hs = gs) ∧ i.same j = true ∧ o.same p = true := by
  constructor
  · intro h
    unfold funcSignature at h
    obtain ⟨e1, h1⟩ := name_split hn hm h
    have e0 : ∀ (u : Ver) (hs : List Hdr), (if u.major = 1 then hs.map Hdr.text else []) = (if u.major = 1 then hs else []).map Hdr.text := by
      intro u hs
      by_cases hu : u.major = 1
      · rw [if_pos hu, if_pos hu]
      · rw [if_neg hu, if_neg hu]; rfl
    rw [e0, e0] at h1
    obtain ⟨e2, e3, h2⟩ := headed_inj hi hj _ _ h1
    obtain ⟨e4, h3⟩ := texts_inj ho hp (List.tail_eq_of_cons_eq h2)
    have e5 : v.major = w.major := dec_inj (List.tail_eq_of_cons_eq h3)
    refine ⟨e1, e5, fun hv => ?_, (same_bare_list _ _).mpr e3, (same_bare_list _ _).mpr e4⟩
    rw [if_pos hv, if_pos (e5 ▸ hv)] at e2
    exact e2
  · rintro ⟨rfl, e1, e2, e3, e4⟩
    unfold funcSignature
    rw [texts_of_same e3, texts_of_same e4, ← e1]
    by_cases hv : v.major = 1
    · rw [if_pos hv, if_pos hv, e2 hv]
    · rw [if_neg hv, if_neg hv]

/-- The signature of an event determines its name, its types and the major version. -/
theorem C76_event {v w : Ver} {n m : List Char} {i j : Tys} (hn : '(' ∉ n) (hm : '(' ∉ m) (hi : i.Ok) (hj : j.Ok) :
    eventSignature v n i = eventSignature w m j ↔ n = m ∧ v.major = w.major ∧ i.same j = true := by
  constructor
  · intro h
    unfold eventSignature at h
    obtain ⟨e1, h1⟩ := name_split hn hm h
    obtain ⟨e2, h2⟩ := texts_inj hi hj h1
    exact ⟨e1, dec_inj (List.tail_eq_of_cons_eq h2), (same_bare_list _ _).mpr e2⟩
  · rintro ⟨rfl, e1, e2⟩
    unfold eventSignature
    rw [texts_of_same e2, e1]

/-- No event has the signature of a function. -/
theorem C76_function_event {v w : Ver} {n m : List Char} {hs : List Hdr} {i j o : Tys} (hn : '(' ∉ n) (hm : '(' ∉ m) (hi : i.Ok) (hj : j.Ok) (ho : o.Ok) :
    funcSignature v n hs i o ≠ eventSignature w m j := by
  intro h
  unfold funcSignature eventSignature at h
  obtain ⟨e1, h1⟩ := name_split hn hm h
  have e0 : (if v.major = 1 then hs.map Hdr.text else []) = (if v.major = 1 then hs else []).map Hdr.text := by
    by_cases hu : v.major = 1
    · rw [if_pos hu, if_pos hu]
    · rw [if_neg hu, if_neg hu]; rfl
  rw [e0] at h1
  obtain ⟨_, _, h2⟩ := headed_inj (gs := []) hi hj _ h1
  exact absurd (List.head_eq_of_cons_eq h2) (by decide)

/-! ### What does not hold -/

/-- A name that holds a parenthesis makes signatures ambiguous: an event named `f()` has the signature of the function `f` that returns a bool. -/
theorem C76_parentheses : ∃ (v : Ver) (i o : Tys), funcSignature v "f".toList [] .nil o = eventSignature v "f()".toList i :=
  ⟨⟨2, 0⟩, .cons "" .bool .nil, .cons "" .bool .nil, by decide +kernel⟩

/-- Descriptions are not canonical: signs and leading zeros in numbers are accepted, and `token` is another name for `gram`. -/
theorem C76_not_canonical : Ty.fromText "uint+8".toList = .ok (.uint 8) ∧ Ty.fromText "uint008".toList = .ok (.uint 8) ∧ Ty.fromText "bool[+2]".toList = .ok (.fixedArray .bool 2) ∧
    Ty.fromText "token".toList = Ty.fromText "gram".toList := by decide +kernel

/-- Widths are not checked: numbers that no cell can hold, and numbers of no bits, are accepted. -/
theorem C76_widths : Ty.fromText "uint65535".toList = .ok (.uint 65535) ∧ Ty.fromText "int0".toList = .ok (.int 0) ∧ Ty.fromText "varuint255".toList = .ok (.varuint 255) := by decide +kernel

/-! ### Concrete cases -/

section Examples

/-- A map to arrays of tuples that hold a tuple of their own. -/
def exType : Ty := .map (.uint 256) (.array (.tuple (.cons "a" (.uint 8) (.cons "b" (.optional (.tuple (.cons "x" .bool (.cons "y" (.fixedArray .address 3) .nil)))) .nil))))

example : exType.Ok := ⟨(by decide : 256 < 2 ^ 16), (by decide : 8 < 2 ^ 16), ⟨trivial, ⟨trivial, by decide⟩, trivial⟩, trivial⟩
example : exType.simple = "map(uint256,tuple[])".toList := by decide +kernel
example : exType.text = "map(uint256,(uint8,optional((bool,address[3])))[])".toList := by decide +kernel
example : fromField (toField "m" exType) = .ok ("m", exType) := by decide +kernel
/-- Other names, the same text; another type, another text. -/
example : exType.same exType.bare = true ∧ exType.bare ≠ exType ∧ exType.same (.optional exType) = false := by decide +kernel
example : funcSignature ⟨2, 1⟩ "f".toList [.time, .expire] (.cons "a" (.uint 8) (.cons "b" .cell .nil)) (.cons "" .bool .nil) = "f(uint8,cell)(bool)v2".toList := by decide +kernel
example : funcSignature ⟨1, 0⟩ "f".toList [.time, .expire] (.cons "a" (.uint 8) .nil) .nil = "f(time,expire,uint8)()v1".toList := by decide +kernel
example : eventSignature ⟨2, 1⟩ "e".toList (.cons "a" (.tuple .nil) .nil) = "e(())v2".toList := by decide +kernel
/-- The minor version is not a part of signatures. -/
example : ∀ n i o, funcSignature ⟨2, 0⟩ n [] i o = funcSignature ⟨2, 3⟩ n [.pubkey] i o := fun _ _ _ => rfl
/-- Components that the type has no place for, and components that are missing, are refused. -/
example : fromField (.plain "a" "tuple".toList) = .error .expectedComponents ∧ fromField (.composite "a" "bool".toList .nil) = .error .unexpectedComponents ∧
    fromField (.plain "a" "map(uint8,bool".toList) = .error .unterminated ∧ fromField (.plain "a" "uint65536".toList) = .error .invalidBitLen := by decide +kernel
example : Ver.fromText "2.3".toList = some ⟨2, 3⟩ ∧ Ver.fromText "2".toList = none ∧ Ver.fromText "2.256".toList = none := by decide +kernel

end Examples

end Abi
end Verif
