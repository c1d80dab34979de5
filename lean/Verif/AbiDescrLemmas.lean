import Verif.AbiDescr
import Verif.AbiContractProps
import Verif.AbiInitProps
import Verif.AbiTextProps
import Verif.FormsDict
/-
Lemmas for descriptions of contracts.
-/
set_option linter.unusedVariables false
set_option linter.unusedSimpArgs false
namespace Verif
namespace Abi

open Text V248 Form

/-! ### Texts and ids -/

theorem scalar_inj {a b : Nat} (ha : a < 0x110000) (hb : b < 0x110000) {r s : List Byte} (h : encodeScalar a ++ r = encodeScalar b ++ s) : a = b ∧ r = s := by
  unfold encodeScalar at h
  have key : ∀ {x y : Nat}, BitVec.ofNat 8 x = BitVec.ofNat 8 y → x % 256 = y % 256 := fun e => by
    have := congrArg BitVec.toNat e
    simpa only [BitVec.toNat_ofNat] using this
  split at h <;> [skip; (split at h <;> [skip; split at h])] <;> (split at h <;> [skip; (split at h <;> [skip; split at h])]) <;>
    simp only [List.cons_append, List.nil_append, List.cons.injEq] at h
  · exact ⟨by have := key h.1; omega, h.2⟩
  · have := key h.1; omega
  · have := key h.1; omega
  · have := key h.1; omega
  · have := key h.1; omega
  · exact ⟨by have := key h.1; have := key h.2.1; omega, h.2.2⟩
  · have := key h.1; omega
  · have := key h.1; omega
  · have := key h.1; omega
  · have := key h.1; omega
  · exact ⟨by have := key h.1; have := key h.2.1; have := key h.2.2.1; omega, h.2.2.2⟩
  · have := key h.1; omega
  · have := key h.1; omega
  · have := key h.1; omega
  · have := key h.1; omega
  · exact ⟨by have := key h.1; have := key h.2.1; have := key h.2.2.1; have := key h.2.2.2.1; omega, h.2.2.2.2⟩

theorem char_lt (c : Char) : c.toNat < 0x110000 := by
  have h : c.val.toNat < 0xd800 ∨ 0xdfff < c.val.toNat ∧ c.val.toNat < 0x110000 := c.valid
  show c.val.toNat < _
  omega

theorem textBytes_inj : ∀ {s t : List Char}, textBytes s = textBytes t → s = t
  | [], [], _ => rfl
  | [], c :: t, h => by
    have := congrArg List.length h
    unfold textBytes at this
    rw [List.flatMap_cons, List.length_append] at this
    have h0 := List.length_pos_of_ne_nil (encodeScalar_ne c.toNat)
    simp at this
    omega
  | c :: s, [], h => by
    have := congrArg List.length h
    unfold textBytes at this
    rw [List.flatMap_cons, List.length_append] at this
    simp at this
    exact absurd this.1 (encodeScalar_ne _)
  | c :: s, d :: t, h => by
    unfold textBytes at h
    rw [List.flatMap_cons, List.flatMap_cons] at h
    obtain ⟨h1, h2⟩ := scalar_inj (char_lt c) (char_lt d) h
    rw [Char.ext (UInt32.toNat_inj.1 h1), textBytes_inj (s := s) (t := t) h2]

theorem fold_lt : ∀ (l : List Byte) (n : Nat), l.foldl (fun n b => n * 256 + b.toNat) n < (n + 1) * 256 ^ l.length
  | [], n => by simp
  | b :: l, n => by
    rw [List.foldl_cons, List.length_cons, Nat.pow_succ']
    refine Nat.lt_of_lt_of_le (fold_lt l _) ?_
    rw [← Nat.mul_assoc]
    exact Nat.mul_le_mul_right _ (by have := b.isLt; omega)

theorem hashId_lt (sha : List Byte → List Byte) (s : List Char) : hashId sha s < 2 ^ 32 := by
  unfold hashId
  have h := fold_lt ((sha (textBytes s)).take 4) 0
  have hl : ((sha (textBytes s)).take 4).length ≤ 4 := by rw [List.length_take]; omega
  have : 256 ^ ((sha (textBytes s)).take 4).length ≤ 256 ^ 4 := Nat.pow_le_pow_right (by decide) hl
  omega

theorem readId_lt {s : List Char} {id : Nat} (h : readId s = some id) : id < 2 ^ 32 := by
  unfold readId at h
  cases hs : stripPrefix "0x".toList s with
  | none => rw [hs] at h; cases h
  | some t =>
    rw [hs] at h
    change parseUint 16 _ t = some id at h
    unfold parseUint at h
    cases hd : parseDigits 16 (stripPlus t) with
    | none => rw [hd] at h; cases h
    | some n =>
      rw [hd] at h
      dsimp only at h
      by_cases hn : n ≤ 2 ^ 32 - 1
      · rw [if_pos hn] at h
        injection h with h
        omega
      · rw [if_neg hn] at h; cases h

theorem stripPrefix_some : ∀ {p s t : List Char}, stripPrefix p s = some t ↔ s = p ++ t
  | [], s, t => by simp [stripPrefix]
  | a :: p, [], t => by simp [stripPrefix]
  | a :: p, b :: s, t => by
    rw [stripPrefix]
    by_cases h : a = b
    · subst h
      rw [if_pos rfl, stripPrefix_some]
      simp
    · rw [if_neg h]
      simp [Ne.symm h]

/-! ### Lists of entries -/

theorem readAll_some {α β : Type} {f : α → Option β} : ∀ {l : List α}, (readAll f l).isSome = true ↔ ∀ x ∈ l, (f x).isSome = true
  | [] => by simp [readAll]
  | x :: l => by
    rw [readAll]
    cases h : f x with
    | none => simp [h]
    | some y =>
      have := readAll_some (f := f) (l := l)
      simp [h, Option.isSome_map, this]

theorem readAll_length {α β : Type} {f : α → Option β} : ∀ {l : List α} {r : List β}, readAll f l = some r → r.length = l.length
  | [], r, h => by rw [readAll] at h; injection h with h; rw [← h]; rfl
  | x :: l, r, h => by
    rw [readAll] at h
    cases hx : f x with
    | none => rw [hx] at h; cases h
    | some y =>
      rw [hx] at h
      change (readAll f l).map _ = some r at h
      cases hr : readAll f l with
      | none => rw [hr] at h; cases h
      | some r' =>
        rw [hr] at h
        injection h with h
        rw [← h, List.length_cons, List.length_cons, readAll_length hr]

theorem lastNamed_cons {α : Type} {name : α → String} {x : α} {l : List α} {n : String} {y : α} :
    LastNamed name (x :: l) n y ↔ LastNamed name l n y ∨ y = x ∧ name x = n ∧ ∀ z ∈ l, name z ≠ n := by
  constructor
  · rintro ⟨a, b, h1, h2, h3⟩
    cases a with
    | nil =>
      injection h1 with e1 e2
      subst e1; subst e2
      exact .inr ⟨rfl, h2, h3⟩
    | cons c a =>
      injection h1 with e1 e2
      exact .inl ⟨a, b, e2, h2, h3⟩
  · rintro (⟨a, b, h1, h2, h3⟩ | ⟨rfl, h2, h3⟩)
    · exact ⟨x :: a, b, by rw [h1]; rfl, h2, h3⟩
    · exact ⟨[], l, rfl, h2, h3⟩

/-- What is in a hash map that was collected from a list: the last entries with their names. -/
theorem collected {α β : Type} {name : α → String} {g : α → Option (String × β)} (hn : ∀ x p, g x = some p → p.1 = name x) {l : List α} {r : List (String × β)}
    (h : readAll g l = some r) (n : String) (v : β) : (n, v) ∈ lastWins r ↔ ∃ x, LastNamed name l n x ∧ g x = some (n, v) := by
  rw [(lastWins_spec r).2]
  have key : ∀ (l : List α) (r : List (String × β)) (tm : String → Option β), readAll g l = some r →
      (puts tm r n = some v ↔ (∃ x, LastNamed name l n x ∧ g x = some (n, v)) ∨ (∀ x ∈ l, name x ≠ n) ∧ tm n = some v) := by
    intro l
    induction l with
    | nil =>
      intro r tm h
      rw [readAll] at h
      injection h with h
      subst h
      show tm n = some v ↔ _
      constructor
      · exact fun h => .inr ⟨(by intro x hx; cases hx), h⟩
      · rintro (⟨x, ⟨a, b, h1, _⟩, _⟩ | ⟨_, h⟩)
        · cases a <;> cases h1
        · exact h
    | cons x l ih =>
      intro r tm h
      rw [readAll] at h
      cases hx : g x with
      | none => rw [hx] at h; cases h
      | some p =>
        rw [hx] at h
        change (readAll g l).map _ = some r at h
        cases hr : readAll g l with
        | none => rw [hr] at h; cases h
        | some r' =>
          rw [hr] at h
          injection h with h
          subst h
          rw [puts_cons, ih r' _ hr]
          have hp := hn x p hx
          constructor
          · rintro (⟨y, h1, h2⟩ | ⟨h1, h2⟩)
            · exact .inl ⟨y, lastNamed_cons.2 (.inl h1), h2⟩
            · by_cases he : n = p.1
              · rw [if_pos he] at h2
                injection h2 with h2
                refine .inl ⟨x, lastNamed_cons.2 (.inr ⟨rfl, by rw [← hp, he], h1⟩), ?_⟩
                rw [hx, he, ← h2]
              · rw [if_neg he] at h2
                refine .inr ⟨fun y hy => ?_, h2⟩
                rcases List.mem_cons.1 hy with rfl | hy
                · exact fun e => he (by rw [hp, e])
                · exact h1 y hy
          · rintro (⟨y, h1, h2⟩ | ⟨h1, h2⟩)
            · rcases lastNamed_cons.1 h1 with h1 | ⟨rfl, h3, h4⟩
              · exact .inl ⟨y, h1, h2⟩
              · rw [hx] at h2
                injection h2 with h2
                subst h2
                exact .inr ⟨h4, by rw [if_pos rfl]⟩
            · refine .inr ⟨fun y hy => h1 y (List.mem_cons_of_mem _ hy), ?_⟩
              rw [if_neg (by rw [hp]; exact fun e => h1 x List.mem_cons_self e.symm)]
              exact h2
  rw [key l r _ h]
  simp

/-! ### Entries -/

theorem toOption_some {ε α : Type} {x : Except ε α} {a : α} : x.toOption = some a ↔ x = .ok a := by
  cases x with
  | error e => exact ⟨fun h => (nomatch h), fun h => (nomatch h)⟩
  | ok b => exact ⟨fun h => by injection h with h; rw [h], fun h => by injection h with h; rw [h]; rfl⟩

theorem isSome_toOption {ε α : Type} {x : Except ε α} : x.toOption.isSome = true ↔ x.isOk = true := by
  cases x <;> exact Iff.rfl

theorem readFunction_iff {sha : List Byte → List Byte} {ver : Ver} {hs : List Hdr} {j : FuncJson} {n : String} {f : Func} :
    readFunction sha ver hs j = some (n, f) ↔ j.name = n ∧ DeclaresFunc sha ver hs j f := by
  unfold readFunction
  constructor
  · intro h
    cases hi : (fromFields j.inputs).toOption with
    | none => rw [hi] at h; cases h
    | some i =>
      cases ho : (fromFields j.outputs).toOption with
      | none => rw [hi, ho] at h; cases h
      | some o =>
        rw [hi, ho] at h
        have hi := toOption_some.1 hi
        have ho := toOption_some.1 ho
        cases hid : j.id with
        | none =>
          rw [hid] at h
          injection h with h
          injection h with h1 h2
          subst h2
          have := C75_ids (computeFunctionId sha ver j.name hs i o) (hashId_lt _ _)
          refine ⟨h1, ⟨rfl, rfl, rfl, hi, ho, ?_, ?_⟩⟩
          · rw [hid]; exact this.1
          · rw [hid]; exact this.2.1
        | some s =>
          rw [hid] at h
          change ((readId s).map some).map _ = _ at h
          cases hr : readId s with
          | none => rw [hr] at h; cases h
          | some id =>
            rw [hr] at h
            injection h with h
            injection h with h1 h2
            subst h2
            refine ⟨h1, ⟨rfl, rfl, rfl, hi, ho, ?_, ?_⟩⟩
            · rw [hid]; exact hr
            · rw [hid]; exact hr
  · rintro ⟨rfl, h⟩
    rw [toOption_some.2 h.inputs, toOption_some.2 h.outputs]
    obtain ⟨a, b, c, d, e, i, o⟩ := f
    have hv : a = ver := h.ver
    have hh : b = hs := h.headers
    have hnm : c = j.name := h.name
    subst hv; subst hh; subst hnm
    have hi := h.input
    have ho := h.output
    cases hid : j.id with
    | none =>
      rw [hid] at hi ho
      change i = _ at hi
      change o = _ at ho
      have := C75_ids (computeFunctionId sha a j.name b d e) (hashId_lt _ _)
      show some (j.name, (⟨a, b, j.name, d, e, _, _⟩ : Func)) = _
      rw [hi, ho]
      exact congrArg some (congrArg (Prod.mk j.name) (by rw [Func.mk.injEq]; exact ⟨rfl, rfl, rfl, rfl, rfl, this.1, this.2.1⟩))
    | some s =>
      rw [hid] at hi ho
      change readId s = some i at hi
      change readId s = some o at ho
      show ((readId s).map some).map _ = _
      rw [hi]
      rw [hi] at ho
      injection ho with ho
      rw [← ho]
      rfl

theorem readEvent_iff {sha : List Byte → List Byte} {ver : Ver} {j : EventJson} {n : String} {f : Event} :
    readEvent sha ver j = some (n, f) ↔ j.name = n ∧ DeclaresEvent sha ver j f := by
  unfold readEvent
  constructor
  · intro h
    cases hi : (fromFields j.inputs).toOption with
    | none => rw [hi] at h; cases h
    | some i =>
      rw [hi] at h
      have hi := toOption_some.1 hi
      cases hid : j.id with
      | none =>
        rw [hid] at h
        injection h with h
        injection h with h1 h2
        subst h2
        refine ⟨h1, ⟨rfl, rfl, hi, ?_⟩⟩
        rw [hid]; exact (C75_ids (computeEventId sha ver j.name i) (hashId_lt _ _)).1
      | some s =>
        rw [hid] at h
        change ((readId s).map some).map _ = _ at h
        cases hr : readId s with
        | none => rw [hr] at h; cases h
        | some id =>
          rw [hr] at h
          injection h with h
          injection h with h1 h2
          subst h2
          refine ⟨h1, ⟨rfl, rfl, hi, ?_⟩⟩
          rw [hid]; exact hr
  · rintro ⟨rfl, h⟩
    rw [toOption_some.2 h.inputs]
    obtain ⟨a, c, d, i⟩ := f
    have hv : a = ver := h.ver
    have hnm : c = j.name := h.name
    subst hv; subst hnm
    have hi := h.id
    cases hid : j.id with
    | none =>
      rw [hid] at hi
      change i = _ at hi
      show some (j.name, (⟨a, j.name, d, _⟩ : Event)) = _
      rw [hi]
      exact congrArg some (congrArg (Prod.mk j.name) (by rw [Event.mk.injEq]; exact ⟨rfl, rfl, rfl, (C75_ids (computeEventId sha a j.name d) (hashId_lt _ _)).1⟩))
    | some s =>
      rw [hid] at hi
      change readId s = some i at hi
      show ((readId s).map some).map _ = _
      rw [hi]
      rfl

/-- The name of a field. -/
theorem fromField_name {f : Field} {x : String × Ty} (h : fromField f = .ok x) : x.1 = match (generalizing := false) f with | .plain m _ => m | .composite m _ _ => m := by
  cases f with
  | plain m s =>
    rw [fromField] at h
    cases ht : Ty.fromText s with
    | error e => rw [ht] at h; cases h
    | ok t =>
      rw [ht] at h
      change (if t.components.isSome then _ else _) = _ at h
      by_cases hc : t.components.isSome = true
      · rw [if_pos hc] at h; cases h
      · rw [if_neg hc] at h; injection h with h; rw [← h]
  | composite m s cs =>
    rw [fromField] at h
    cases ht : Ty.fromText s with
    | error e => rw [ht] at h; cases h
    | ok t =>
      rw [ht] at h
      change (if t.components.isSome then _ else _) = _ at h
      by_cases hc : t.components.isSome = true
      · rw [if_pos hc] at h
        cases hf : fromFields cs with
        | error e => rw [hf] at h; cases h
        | ok ts => rw [hf] at h; injection h with h; rw [← h]
      · rw [if_neg hc] at h; cases h

theorem readInit_iff {j : InitJson} {n : String} {i : InitItem} :
    readInit j = some (n, i) ↔ i.key = j.key ∧ i.name = n ∧ fromField j.field = .ok (n, i.ty) := by
  unfold readInit
  constructor
  · intro h
    cases hf : (fromField j.field).toOption with
    | none => rw [hf] at h; cases h
    | some x =>
      rw [hf] at h
      have hf := toOption_some.1 hf
      injection h with h
      injection h with h1 h2
      subst h1; subst h2
      exact ⟨rfl, rfl, hf⟩
  · rintro ⟨h1, h2, h3⟩
    obtain ⟨a, b, c⟩ := i
    change b = _ at h1
    change a = _ at h2
    subst h1; subst h2
    rw [toOption_some.2 h3]
    rfl

theorem hdr_text {s : List Char} {x : Hdr} : Hdr.fromText s = .ok x ↔ x.text = s := by
  constructor
  · intro h
    unfold Hdr.fromText at h
    by_cases h1 : s = "time".toList
    · rw [if_pos h1] at h; injection h with h; rw [← h, h1]; rfl
    · rw [if_neg h1] at h
      by_cases h2 : s = "expire".toList
      · rw [if_pos h2] at h; injection h with h; rw [← h, h2]; rfl
      · rw [if_neg h2] at h
        by_cases h3 : s = "pubkey".toList
        · rw [if_pos h3] at h; injection h with h; rw [← h, h3]; rfl
        · rw [if_neg h3] at h; cases h
  · rintro rfl
    cases x <;> rfl

theorem hdrs_text : ∀ {l : List (List Char)} {r : List Hdr}, readAll (fun s => (Hdr.fromText s).toOption) l = some r ↔ r.map Hdr.text = l
  | [], r => by
    rw [readAll]
    constructor
    · intro h; injection h with h; rw [← h]; rfl
    · intro h; rw [List.map_eq_nil_iff.1 h]
  | s :: l, r => by
    rw [readAll]
    constructor
    · intro h
      cases hx : (Hdr.fromText s).toOption with
      | none => rw [hx] at h; cases h
      | some x =>
        rw [hx] at h
        change (readAll _ l).map _ = _ at h
        cases hr : readAll (fun s => (Hdr.fromText s).toOption) l with
        | none => rw [hr] at h; cases h
        | some r' =>
          rw [hr] at h
          injection h with h
          rw [← h, List.map_cons, hdr_text.1 (toOption_some.1 hx), hdrs_text.1 hr]
    · intro h
      cases r with
      | nil => cases h
      | cons x r =>
        injection h with h1 h2
        rw [toOption_some.2 (hdr_text.2 h1)]
        show (readAll _ l).map _ = _
        rw [hdrs_text.2 h2]
        rfl

theorem readVersion_iff {j : ContractJson} {v : Ver} : readVersion j = some v ↔ HasVersion j v := by
  unfold readVersion
  constructor
  · intro h
    cases hs : j.version with
    | some s => rw [hs] at h; exact .text s v hs h
    | none =>
      rw [hs] at h
      cases hm : j.abiVersion with
      | none => rw [hm] at h; cases h
      | some m => rw [hm] at h; injection h with h; rw [← h]; exact .number m hs hm
  · intro h
    cases h with
    | text s v hs hv => rw [hs]; exact hv
    | number m hs hm => rw [hs, hm]

/-- The parts of an accepted description. -/
theorem readContract_parts {sha : List Byte → List Byte} {j : ContractJson} {c : Contract} (h : readContract sha j = some c) :
    ∃ F E D, readVersion j = some c.ver ∧ readAll (fun s => (Hdr.fromText s).toOption) j.header = some c.headers ∧
      readAll (readFunction sha c.ver c.headers) j.functions = some F ∧ readAll (readEvent sha c.ver) j.events = some E ∧ readAll readInit j.data = some D ∧
      fromFields j.fields = .ok c.fields ∧ c.functions = lastWins F ∧ c.events = lastWins E ∧ c.initData = lastWins D := by
  unfold readContract at h
  cases h1 : readVersion j with
  | none => rw [h1] at h; cases h
  | some v =>
    cases h2 : readAll (fun s => (Hdr.fromText s).toOption) j.header with
    | none => rw [h1, h2] at h; cases h
    | some hs =>
      rw [h1, h2] at h
      change (readAll (readFunction sha v hs) j.functions).bind _ = _ at h
      cases h3 : readAll (readFunction sha v hs) j.functions with
      | none => rw [h3] at h; cases h
      | some F =>
        rw [h3] at h
        change (readAll (readEvent sha v) j.events).bind _ = _ at h
        cases h4 : readAll (readEvent sha v) j.events with
        | none => rw [h4] at h; cases h
        | some E =>
          rw [h4] at h
          change (readAll readInit j.data).bind _ = _ at h
          cases h5 : readAll readInit j.data with
          | none => rw [h5] at h; cases h
          | some D =>
            rw [h5] at h
            change (fromFields j.fields).toOption.map _ = _ at h
            cases h6 : (fromFields j.fields).toOption with
            | none => rw [h6] at h; cases h
            | some fs =>
              rw [h6] at h
              injection h with h
              subst h
              exact ⟨F, E, D, rfl, rfl, h3, h4, rfl, toOption_some.1 h6, rfl, rfl, rfl⟩

/-! ### Bodies -/

theorem sent_wf {acc : Cell → Bool} {ver : Ver} (hv : 1 ≤ ver.major) {id : Nat} (hid : id < 2 ^ 32) {tokens : Items} (hg : GoodItems ver tokens)
    (hr : Regular ver (idTuple id tokens)) {b : CellB Cell} (h : encodeBody acc ver id tokens = .ok b) : (bodySlice b).WF := by
  unfold encodeBody at h
  cases h1 : write acc ver (.uint 32 id) (Ser.start ((Val.uint 32 id).size ver + (Val.tuple tokens).size ver)) with
  | error x => rw [h1] at h; cases h
  | ok s1 =>
    rw [h1] at h
    change writeItems acc ver tokens s1 >>= finalize acc = .ok b at h
    cases h2 : writeItems acc ver tokens s1 with
    | error x => rw [h2] at h; cases h
    | ok s2 =>
      rw [h2] at h
      change finalize acc s2 = .ok b at h
      obtain ⟨f1, p1⟩ := uint_item (by decide) (by decide) hid (ready_start _) h1
      obtain ⟨T, f2, p2⟩ := writtenItems hv tokens hg s1 s2 (p1.ready (ready_start _)) h2
      have f3 : FlatItems ver (.cons "" (.uint 32 id) tokens) _ := flat_cons f1 f2
      have f4 : Flat ver (idTuple id tokens) _ := flat_tuple (by simp) f3
      have hac : Acct ver 0 _ ((idTuple id tokens).size ver) := acct_of hv f4 hr
      unfold idTuple at hac
      rw [tuple_size] at hac
      obtain ⟨x, G, k1, k2, _⟩ := packedAt (o := 0) hv f4.sizes.ok (by simp) (fun i T' hi => by
        injection hi with hi _
        subst hi
        show 0 + 32 ≤ 1023
        omega) (fun _ => by simp [sumBits, sumRefs]) hac (p1.append p2) h
      exact (Tlb.reader_contents (b := b.inner.bits) (r := b.refs) k1.wf.contents_fits).1

/-- What is sent as a body starts with the id and comes back. -/
theorem body_sent {acc : Cell → Bool} {ver : Ver} (hv : 1 ≤ ver.major) {id : Nat} (hid : id < 2 ^ 32) {tokens : Items} {tys : Tys} (hg : GoodItems ver (tokens.named tys))
    (hr : Regular ver (idTuple id (tokens.named tys))) {b : CellB Cell}
    (h : (if haveTypes tokens tys then encodeBody acc ver id tokens else .error .invalidData) = .ok b) :
    (bodySlice b).WF ∧ (Rd.u32 (bodySlice b)).1 = .ok id ∧ ∀ part, decodeBody ver part id tys (bodySlice b) = .ok (tokens.named tys) := by
  have hd := fun part => body_named hv hid hg hr h part
  have hw : (bodySlice b).WF := by
    by_cases ht : haveTypes tokens tys = true
    · rw [if_pos ht, ← encode_named tys] at h
      exact sent_wf hv hid hg hr h
    · rw [if_neg ht] at h; cases h
  refine ⟨hw, ?_, hd⟩
  obtain ⟨h1, h2⟩ := body_id hw (hd false)
  obtain ⟨s1, e1, _⟩ := (Rd.takes_u32 (ρ := Cell) _ hw).1 h1
  rw [e1, h2]

end Abi
end Verif
