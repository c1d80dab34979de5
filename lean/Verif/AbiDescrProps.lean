import Verif.AbiDescrLemmas
/-
Property C95: contracts are made of their descriptions as these say, and calls find the functions that they are for.
-/
set_option linter.unusedVariables false
set_option linter.unusedSimpArgs false
namespace Verif
namespace Abi

open Text V248 Form

/-! ### Reading of descriptions -/

/-- **C95.** A contract read from a description has what the description declares and nothing else. -/
theorem C95_read (sha : List Byte → List Byte) (j : ContractJson) (c : Contract) (h : readContract sha j = some c) : Describes sha j c := by
  obtain ⟨F, E, D, h1, h2, h3, h4, h5, h6, e1, e2, e3⟩ := readContract_parts h
  refine ⟨readVersion_iff.1 h1, hdrs_text.1 h2, ?_, fun n f => ?_, fun n f => ?_, fun n i => ?_, h6⟩
  · rw [e1, e2, e3]
    exact ⟨(lastWins_spec F).1, (lastWins_spec E).1, (lastWins_spec D).1⟩
  · rw [e1, collected (name := FuncJson.name) (fun x p hp => (readFunction_iff (f := p.2).1 hp).1.symm) h3]
    constructor
    · rintro ⟨x, k1, k2⟩
      exact ⟨x, k1, (readFunction_iff.1 k2).2⟩
    · rintro ⟨x, k1, k2⟩
      refine ⟨x, k1, readFunction_iff.2 ⟨?_, k2⟩⟩
      obtain ⟨_, _, _, hn, _⟩ := k1
      exact hn
  · rw [e2, collected (name := EventJson.name) (fun x p hp => (readEvent_iff (f := p.2).1 hp).1.symm) h4]
    constructor
    · rintro ⟨x, k1, k2⟩
      exact ⟨x, k1, (readEvent_iff.1 k2).2⟩
    · rintro ⟨x, k1, k2⟩
      refine ⟨x, k1, readEvent_iff.2 ⟨?_, k2⟩⟩
      obtain ⟨_, _, _, hn, _⟩ := k1
      exact hn
  · rw [e3, collected (name := fun x : InitJson => match x.field with | .plain m _ => m | .composite m _ _ => m)
      (fun x p hp => fromField_name (x := (p.1, p.2.ty)) (readInit_iff (i := p.2).1 hp).2.2) h5]
    exact exists_congr fun x => and_congr Iff.rfl readInit_iff

/-- **C95.** The descriptions that are accepted: exactly those with a version, known headers, readable types and readable ids. -/
theorem C95_accepts (sha : List Byte → List Byte) (j : ContractJson) : (readContract sha j).isSome = true ↔ Readable j := by
  have fn : ∀ (ver : Ver) (hs : List Hdr) (f : FuncJson), (readFunction sha ver hs f).isSome = true ↔
      (fromFields f.inputs).isOk = true ∧ (fromFields f.outputs).isOk = true ∧ ∀ s, f.id = some s → (readId s).isSome = true := by
    intro ver hs f
    unfold readFunction
    rw [← isSome_toOption, ← isSome_toOption]
    cases h1 : (fromFields f.inputs).toOption with
    | none => simp
    | some i =>
      cases h2 : (fromFields f.outputs).toOption with
      | none => simp
      | some o =>
        cases h3 : f.id with
        | none => simp [readOptId]
        | some s => simp [readOptId, Option.isSome_map]
  have ev : ∀ (ver : Ver) (f : EventJson), (readEvent sha ver f).isSome = true ↔
      (fromFields f.inputs).isOk = true ∧ ∀ s, f.id = some s → (readId s).isSome = true := by
    intro ver f
    unfold readEvent
    rw [← isSome_toOption]
    cases h1 : (fromFields f.inputs).toOption with
    | none => simp
    | some i =>
      cases h3 : f.id with
      | none => simp [readOptId]
      | some s => simp [readOptId, Option.isSome_map]
  have hd : ∀ s : List Char, ((Hdr.fromText s).toOption).isSome = true ↔ s = "time".toList ∨ s = "expire".toList ∨ s = "pubkey".toList := by
    intro s
    constructor
    · intro h
      obtain ⟨x, hx⟩ := Option.isSome_iff_exists.1 h
      have := hdr_text.1 (toOption_some.1 hx)
      cases x <;> simp [← this, Hdr.text]
    · rintro (rfl | rfl | rfl) <;> rfl
  constructor
  · intro h
    obtain ⟨c, hc⟩ := Option.isSome_iff_exists.1 h
    obtain ⟨F, E, D, h1, h2, h3, h4, h5, h6, _⟩ := readContract_parts hc
    refine ⟨⟨_, readVersion_iff.1 h1⟩, fun s hs => (hd s).1 (readAll_some.1 (Option.isSome_iff_exists.2 ⟨_, h2⟩) s hs), fun f hf => ?_, fun f hf => ?_, fun x hx => ?_, by rw [h6]; rfl⟩
    · exact (fn _ _ f).1 (readAll_some.1 (Option.isSome_iff_exists.2 ⟨_, h3⟩) f hf)
    · exact (ev _ f).1 (readAll_some.1 (Option.isSome_iff_exists.2 ⟨_, h4⟩) f hf)
    · have := readAll_some.1 (Option.isSome_iff_exists.2 ⟨_, h5⟩) x hx
      unfold readInit at this
      rw [Option.isSome_map] at this
      exact isSome_toOption.1 this
  · intro h
    obtain ⟨v, hv⟩ := h.ver
    obtain ⟨hs, h2⟩ := Option.isSome_iff_exists.1 (readAll_some.2 fun s hs => (hd s).2 (h.headers s hs))
    obtain ⟨F, h3⟩ := Option.isSome_iff_exists.1 (readAll_some.2 fun f hf => (fn v hs f).2 (h.functions f hf))
    obtain ⟨E, h4⟩ := Option.isSome_iff_exists.1 (readAll_some.2 fun f hf => (ev v f).2 (h.events f hf))
    obtain ⟨D, h5⟩ := Option.isSome_iff_exists.1 (readAll_some (f := readInit) (l := j.data) |>.2 fun x hx => by
      unfold readInit
      rw [Option.isSome_map]
      exact isSome_toOption.2 (h.data x hx))
    obtain ⟨fs, h6⟩ := Option.isSome_iff_exists.1 (isSome_toOption.2 h.fields)
    unfold readContract
    rw [readVersion_iff.2 hv, h2]
    show ((readAll (readFunction sha v hs) j.functions).bind _).isSome = true
    rw [h3]
    show ((readAll (readEvent sha v) j.events).bind _).isSome = true
    rw [h4]
    show ((readAll readInit j.data).bind _).isSome = true
    rw [h5]
    show ((fromFields j.fields).toOption.map _).isSome = true
    rw [h6]
    rfl

/-- **C95.** The texts of ids: `0x`, an optional plus sign, at least one hexadecimal digit, a value of at most 32 bits. -/
theorem C95_id_text (s : List Char) (id : Nat) : readId s = some id ↔ id < 2 ^ 32 ∧ ∃ (sign digits : List Char) (ds : List Nat),
    s = "0x".toList ++ sign ++ digits ∧ (sign = [] ∨ sign = ['+']) ∧ digits ≠ [] ∧ digitsOf 16 digits = some ds ∧ numOf 16 ds = id := by
  have hsp : ∀ t : List Char, ∃ sign, (sign = [] ∨ sign = ['+']) ∧ t = sign ++ stripPlus t := by
    intro t
    unfold stripPlus
    split
    · exact ⟨['+'], .inr rfl, rfl⟩
    · exact ⟨[], .inl rfl, rfl⟩
  constructor
  · intro h
    refine ⟨readId_lt h, ?_⟩
    unfold readId at h
    cases hs : stripPrefix "0x".toList s with
    | none => rw [hs] at h; cases h
    | some t =>
      rw [hs] at h
      change parseUint 16 _ t = some id at h
      unfold parseUint parseDigits at h
      by_cases ht : stripPlus t = []
      · rw [if_pos ht] at h; cases h
      · rw [if_neg ht] at h
        cases hd : digitsOf 16 (stripPlus t) with
        | none => rw [hd] at h; cases h
        | some ds =>
          rw [hd] at h
          dsimp only [Option.map] at h
          by_cases hn : numOf 16 ds ≤ 2 ^ 32 - 1
          · rw [if_pos hn] at h
            injection h with h
            obtain ⟨sign, h1, h2⟩ := hsp t
            exact ⟨sign, stripPlus t, ds, by rw [stripPrefix_some.1 hs, List.append_assoc, ← h2], h1, ht, hd, h⟩
          · rw [if_neg hn] at h; cases h
  · rintro ⟨hl, sign, digits, ds, rfl, h1, h2, h3, h4⟩
    have hp : parseDigits 16 digits = some id := by unfold parseDigits; rw [if_neg h2, h3, ← h4]; rfl
    unfold readId
    rw [List.append_assoc, stripPrefix_app]
    show parseUint 16 _ _ = _
    rcases h1 with rfl | rfl
    · exact parseUint_plain hp (by decide) (by omega)
    · unfold parseUint
      show (match parseDigits 16 digits with | some n => _ | none => _) = _
      rw [hp]
      exact if_pos (by omega)

/-- **C95.** Every id has its usual text, with any number of leading zeros. -/
theorem C95_id_round (id : Nat) (h : id < 2 ^ 32) (k : Nat) : readId ("0x".toList ++ List.replicate k '0' ++ Nat.toDigits 16 id) = some id := by
  rw [C95_id_text]
  obtain ⟨ds, h1, h2⟩ := digits_denote16 id
  refine ⟨h, [], List.replicate k '0' ++ Nat.toDigits 16 id, List.replicate k 0 ++ ds, by rw [List.append_nil, List.append_assoc], .inl rfl, ?_, ?_, ?_⟩
  · intro e
    exact Nat.toDigits_ne_nil (List.append_eq_nil_iff.1 e).2
  · exact V248.mapM_append _ _ _ (digitsOf_zeros _) h1
  · unfold numOf at h2 ⊢
    rw [List.foldl_append]
    have : ∀ k, List.foldl (fun acc d => acc * 16 + d) 0 (List.replicate k 0) = 0 := by
      intro k
      induction k with
      | zero => rfl
      | succ k ih => rw [List.replicate_succ, List.foldl_cons]; exact ih
    rw [this, h2]

/-! ### Dispatch -/

/-- The ids in a contract have 32 bits. -/
theorem declared_lt {sha : List Byte → List Byte} {ver : Ver} {hs : List Hdr} {x : FuncJson} {f : Func} (h : DeclaresFunc sha ver hs x f) :
    f.inputId < 2 ^ 32 ∧ f.outputId < 2 ^ 32 := by
  have h1 := h.input
  have h2 := h.output
  unfold IdIs at h1 h2
  cases hi : x.id with
  | none =>
    rw [hi] at h1 h2
    dsimp only at h1 h2
    have := Nat.mod_lt (hashId sha f.signature) (show 0 < 2 ^ 31 by decide)
    omega
  | some s =>
    rw [hi] at h1 h2
    exact ⟨readId_lt h1, readId_lt h2⟩

theorem event_lt {sha : List Byte → List Byte} {ver : Ver} {x : EventJson} {f : Event} (h : DeclaresEvent sha ver x f) : f.id < 2 ^ 32 := by
  have h1 := h.id
  unfold IdIs at h1
  cases hi : x.id with
  | none =>
    rw [hi] at h1
    dsimp only at h1
    have := Nat.mod_lt (hashId sha f.signature) (show 0 < 2 ^ 31 by decide)
    omega
  | some s =>
    rw [hi] at h1
    exact readId_lt h1

theorem nodup_inj {α β : Type} {f : α → β} : ∀ {l : List α}, (l.map f).Nodup → ∀ {x y : α}, x ∈ l → y ∈ l → f x = f y → x = y
  | [], _, _, _, hx, _, _ => by cases hx
  | a :: l, h, x, y, hx, hy, e => by
    rw [List.map_cons, List.nodup_cons] at h
    rcases List.mem_cons.1 hx with h1 | h1 <;> rcases List.mem_cons.1 hy with h2 | h2
    · rw [h1, h2]
    · exact absurd (List.mem_map.2 ⟨y, h2, by rw [← e, h1]⟩) h.1
    · exact absurd (List.mem_map.2 ⟨x, h1, by rw [e, h2]⟩) h.1
    · exact nodup_inj h.2 h1 h2 e

/-- **C95.** In a contract read from a description whose ids differ, in whatever order the hash map is walked: the first 32 bits of the body of a call lead to the function that
was called and no other, this function reads the arguments, and every other function refuses the body. Partial: `Good` and `Regular` are needed as for values (C74), and
of functions with one name only one is there (`C95_overloads_lost`). -/
theorem C95_calls_partial (sha : List Byte → List Byte) (j : ContractJson) (c : Contract) (h : readContract sha j = some c) (hv : 1 ≤ c.ver.major) (l : List Func)
    (hl : l.Perm (c.functions.map (·.2))) (hn : (l.map Func.inputId).Nodup) (n : String) (f : Func) (hf : (n, f) ∈ c.functions) (acc : Cell → Bool) (tokens : Items)
    (hg : GoodItems f.ver (tokens.named f.inputs)) (hr : Regular f.ver (idTuple f.inputId (tokens.named f.inputs))) (b : CellB Cell)
    (hb : f.encodeInternal acc tokens = .ok b) :
    ∃ id, (Rd.u32 (bodySlice b)).1 = .ok id ∧ (∀ g, findFunction l id true = some g ↔ g = f) ∧
      (∀ part, f.decodeInternal part (bodySlice b) = .ok (tokens.named f.inputs)) ∧
      ∀ g ∈ l, g ≠ f → ∀ part r, g.decodeInternal part (bodySlice b) ≠ .ok r := by
  obtain ⟨x, _, hx⟩ := ((C95_read sha j c h).functions n f).1 hf
  have hfv : 1 ≤ f.ver.major := by rw [hx.ver]; exact hv
  obtain ⟨k1, k2, k3⟩ := body_sent hfv (declared_lt hx).1 hg hr hb
  have hm : f ∈ l := hl.mem_iff.2 (List.mem_map.2 ⟨_, hf, rfl⟩)
  refine ⟨f.inputId, k2, fun g => ?_, k3, fun g hgl hne part r he => hne ?_⟩
  · rw [C77_find_function l true f.inputId hn g]
    constructor
    · rintro ⟨m1, m2⟩
      exact nodup_inj hn m1 hm m2
    · rintro rfl
      exact ⟨hm, rfl⟩
  · exact nodup_inj hn hgl hm (C75_one_id _ _ _ _ _ _ _ _ _ k1 _ _ he (k3 false))

/-- **C95.** The same for the answers of functions. -/
theorem C95_answers_partial (sha : List Byte → List Byte) (j : ContractJson) (c : Contract) (h : readContract sha j = some c) (hv : 1 ≤ c.ver.major) (l : List Func)
    (hl : l.Perm (c.functions.map (·.2))) (hn : (l.map Func.outputId).Nodup) (n : String) (f : Func) (hf : (n, f) ∈ c.functions) (acc : Cell → Bool) (tokens : Items)
    (hg : GoodItems f.ver (tokens.named f.outputs)) (hr : Regular f.ver (idTuple f.outputId (tokens.named f.outputs))) (b : CellB Cell)
    (hb : f.encodeOutput acc tokens = .ok b) :
    ∃ id, (Rd.u32 (bodySlice b)).1 = .ok id ∧ (∀ g, findFunction l id false = some g ↔ g = f) ∧
      (∀ part, f.decodeOutput part (bodySlice b) = .ok (tokens.named f.outputs)) ∧
      ∀ g ∈ l, g ≠ f → ∀ part r, g.decodeOutput part (bodySlice b) ≠ .ok r := by
  obtain ⟨x, _, hx⟩ := ((C95_read sha j c h).functions n f).1 hf
  have hfv : 1 ≤ f.ver.major := by rw [hx.ver]; exact hv
  obtain ⟨k1, k2, k3⟩ := body_sent hfv (declared_lt hx).2 hg hr hb
  have hm : f ∈ l := hl.mem_iff.2 (List.mem_map.2 ⟨_, hf, rfl⟩)
  refine ⟨f.outputId, k2, fun g => ?_, k3, fun g hgl hne part r he => hne ?_⟩
  · rw [C77_find_function l false f.outputId hn g]
    constructor
    · rintro ⟨m1, m2⟩
      exact nodup_inj hn m1 hm m2
    · rintro rfl
      exact ⟨hm, rfl⟩
  · exact nodup_inj hn hgl hm (C75_one_id _ _ _ _ _ _ _ _ _ k1 _ _ he (k3 false))

/-- **C95.** The same for events. -/
theorem C95_events_partial (sha : List Byte → List Byte) (j : ContractJson) (c : Contract) (h : readContract sha j = some c) (hv : 1 ≤ c.ver.major) (l : List Event)
    (hl : l.Perm (c.events.map (·.2))) (hn : (l.map Event.id).Nodup) (n : String) (f : Event) (hf : (n, f) ∈ c.events) (acc : Cell → Bool) (tokens : Items)
    (hg : GoodItems f.ver (tokens.named f.inputs)) (hr : Regular f.ver (idTuple f.id (tokens.named f.inputs))) (b : CellB Cell)
    (hb : f.encodeInternal acc tokens = .ok b) :
    ∃ id, (Rd.u32 (bodySlice b)).1 = .ok id ∧ (∀ g, findEvent l id = some g ↔ g = f) ∧
      (∀ part, f.decodeInternal part (bodySlice b) = .ok (tokens.named f.inputs)) ∧
      ∀ g ∈ l, g ≠ f → ∀ part r, g.decodeInternal part (bodySlice b) ≠ .ok r := by
  obtain ⟨x, _, hx⟩ := ((C95_read sha j c h).events n f).1 hf
  have hfv : 1 ≤ f.ver.major := by rw [hx.ver]; exact hv
  obtain ⟨k1, k2, k3⟩ := body_sent hfv (event_lt hx) hg hr hb
  have hm : f ∈ l := hl.mem_iff.2 (List.mem_map.2 ⟨_, hf, rfl⟩)
  refine ⟨f.id, k2, fun g => ?_, k3, fun g hgl hne part r he => hne ?_⟩
  · rw [C77_find_event l f.id hn g]
    constructor
    · rintro ⟨m1, m2⟩
      exact nodup_inj hn m1 hm m2
    · rintro rfl
      exact ⟨hm, rfl⟩
  · exact nodup_inj hn hgl hm (C75_one_id _ _ _ _ _ _ _ _ _ k1 _ _ he (k3 false))

/-! ### Computed ids -/

/-- Two different texts with the same 31 bits of their hashes. -/
def HashClash (sha : List Byte → List Byte) (s t : List Char) : Prop :=
  textBytes s ≠ textBytes t ∧ hashId sha s % 2 ^ 31 = hashId sha t % 2 ^ 31

/-- **C95.** Computed ids of functions with different names (or with different types) are only equal if the hashes of different signatures clash. -/
theorem C95_functions_differ (sha : List Byte → List Byte) (ver : Ver) (hs : List Hdr) (x y : FuncJson) (f g : Func) (hx : x.id = none) (hy : y.id = none)
    (nx : '(' ∉ x.name.toList) (ny : '(' ∉ y.name.toList) (hf : DeclaresFunc sha ver hs x f) (hg : DeclaresFunc sha ver hs y g)
    (hne : x.name ≠ y.name ∨ f.inputs.same g.inputs = false ∨ f.outputs.same g.outputs = false)
    (he : f.inputId = g.inputId ∨ f.outputId = g.outputId) : HashClash sha f.signature g.signature := by
  refine ⟨fun e => ?_, ?_⟩
  · have e := textBytes_inj e
    unfold Func.signature at e
    rw [hf.name, hg.name, hf.ver, hg.ver, hf.headers, hg.headers] at e
    obtain ⟨e1, _, _, e2, e3⟩ := (C76_function nx ny (fromFields_ok _ _ hf.inputs) (fromFields_ok _ _ hg.inputs) (fromFields_ok _ _ hf.outputs) (fromFields_ok _ _ hg.outputs)).1 e
    rcases hne with hne | hne | hne
    · exact hne (String.toList_inj.1 e1)
    · rw [e2] at hne; cases hne
    · rw [e3] at hne; cases hne
  · have h1 := hf.input
    have h2 := hf.output
    have h3 := hg.input
    have h4 := hg.output
    unfold IdIs at h1 h2 h3 h4
    rw [hx] at h1 h2
    rw [hy] at h3 h4
    dsimp only at h1 h2 h3 h4
    omega

/-- **C95.** The same for events, and for a function and an event. -/
theorem C95_events_differ (sha : List Byte → List Byte) (ver : Ver) (hs : List Hdr) (x y : EventJson) (z : FuncJson) (f g : Event) (k : Func) (hx : x.id = none)
    (hy : y.id = none) (hz : z.id = none) (nx : '(' ∉ x.name.toList) (ny : '(' ∉ y.name.toList) (nz : '(' ∉ z.name.toList) (hf : DeclaresEvent sha ver x f)
    (hg : DeclaresEvent sha ver y g) (hk : DeclaresFunc sha ver hs z k) :
    (x.name ≠ y.name ∨ f.inputs.same g.inputs = false → f.id = g.id → HashClash sha f.signature g.signature) ∧
    (k.inputId = f.id → HashClash sha k.signature f.signature) ∧ k.outputId ≠ f.id := by
  have h1 := hf.id
  have h2 := hg.id
  have h3 := hk.input
  have h4 := hk.output
  unfold IdIs at h1 h2 h3 h4
  rw [hx] at h1
  rw [hy] at h2
  rw [hz] at h3 h4
  dsimp only at h1 h2 h3 h4
  refine ⟨fun hne he => ⟨fun e => ?_, by omega⟩, fun he => ⟨fun e => ?_, by omega⟩, ?_⟩
  · have e := textBytes_inj e
    unfold Event.signature at e
    rw [hf.name, hg.name, hf.ver, hg.ver] at e
    obtain ⟨e1, _, e2⟩ := (C76_event nx ny (fromFields_ok _ _ hf.inputs) (fromFields_ok _ _ hg.inputs)).1 e
    rcases hne with hne | hne
    · exact hne (String.toList_inj.1 e1)
    · rw [e2] at hne; cases hne
  · have e := textBytes_inj e
    unfold Event.signature Func.signature at e
    rw [hf.name, hk.name] at e
    exact C76_function_event nz nx (fromFields_ok _ _ hk.inputs) (fromFields_ok _ _ hf.inputs) (fromFields_ok _ _ hk.outputs) e
  · have := Nat.mod_lt (hashId sha f.signature) (show 0 < 2 ^ 31 by decide)
    omega

/-! ### Builders -/

/-- **C95.** What a description declares is what the builders make of the same parts. -/
theorem C95_builders (sha : List Byte → List Byte) (ver : Ver) (hs : List Hdr) (x : FuncJson) (y : EventJson) (i o e : Tys) (hi : fromFields x.inputs = .ok i)
    (ho : fromFields x.outputs = .ok o) (he : fromFields y.inputs = .ok e) :
    (x.id = none → readFunction sha ver hs x = some (x.name, ((((FuncBuilder.new ver x.name).withHeaders hs).withInputs i).withOutputs o).build sha)) ∧
    (∀ s id, x.id = some s → readId s = some id →
      readFunction sha ver hs x = some (x.name, (((((FuncBuilder.new ver x.name).withId id).withOutputs o).withInputs i).withHeaders hs).build sha)) ∧
    (y.id = none → readEvent sha ver y = some (y.name, ((EventBuilder.new ver y.name).withInputs e).build sha)) ∧
    ∀ s id, y.id = some s → readId s = some id → readEvent sha ver y = some (y.name, (((EventBuilder.new ver y.name).withId id).withInputs e).build sha) := by
  unfold readFunction readEvent
  rw [hi, ho, he]
  refine ⟨fun h => ?_, fun s id h hr => ?_, fun h => ?_, fun s id h hr => ?_⟩
  · rw [h]; rfl
  · rw [h]
    show ((readId s).map some).map _ = _
    rw [hr]
    rfl
  · rw [h]; rfl
  · rw [h]
    show ((readId s).map some).map _ = _
    rw [hr]
    rfl

/-- **C95.** The names of arguments have no part in ids: functions and events whose types are the same except for names have the same ids. -/
theorem C95_names_ignored (sha : List Byte → List Byte) (b : FuncBuilder) (i i' o o' : Tys) (hi : i.same i' = true) (ho : o.same o' = true) (e : EventBuilder) :
    (((b.withInputs i).withOutputs o).build sha).inputId = (((b.withInputs i').withOutputs o').build sha).inputId ∧
    (((b.withInputs i).withOutputs o).build sha).outputId = (((b.withInputs i').withOutputs o').build sha).outputId ∧
    ((e.withInputs i).build sha).id = ((e.withInputs i').build sha).id := by
  have h1 : computeFunctionId sha b.ver b.name b.headers i o = computeFunctionId sha b.ver b.name b.headers i' o' := by
    unfold computeFunctionId funcSignature
    rw [texts_of_same hi, texts_of_same ho]
  have h2 : computeEventId sha e.ver e.name i = computeEventId sha e.ver e.name i' := by
    unfold computeEventId eventSignature
    rw [texts_of_same hi]
  obtain ⟨bv, bn, bh, bi, bo, bid⟩ := b
  obtain ⟨ev, en, ei, eid⟩ := e
  refine ⟨?_, ?_, ?_⟩
  · cases bid with
    | some id => rfl
    | none => exact congrArg (· &&& 0x7fffffff) h1
  · cases bid with
    | some id => rfl
    | none => exact congrArg (· ||| 0x80000000) h1
  · cases eid with
    | some id => rfl
    | none => exact congrArg (· &&& 0x7fffffff) h2

/-- **C95.** Unnamed arguments get the names `value0`, `value1`, and so on: the types stay in order and no name is given twice. -/
theorem C95_unnamed (l : List Ty) : (indexed 0 l).list.map (·.2) = l ∧ ((indexed 0 l).list.map (·.1)).Nodup ∧
    ∀ k : Nat, (indexed 0 l).list[k]?.map (·.1) = (l[k]?.map fun _ => String.ofList ("value".toList ++ Nat.toDigits 10 k)) := by
  have h1 : ∀ (l : List Ty) (i : Nat), (indexed i l).list.map (·.2) = l := by
    intro l
    induction l with
    | nil => intro i; rfl
    | cons t l ih => intro i; show t :: _ = _; rw [ih]
  have h2 : ∀ (l : List Ty) (i k : Nat), (indexed i l).list[k]?.map (·.1) = (l[k]?.map fun _ => String.ofList ("value".toList ++ Nat.toDigits 10 (i + k))) := by
    intro l
    induction l with
    | nil => intro i k; rfl
    | cons t l ih =>
      intro i k
      cases k with
      | zero => rfl
      | succ k =>
        show (indexed (i + 1) l).list[k]?.map (·.1) = (l[k]?.map _)
        rw [ih (i + 1) k, Nat.add_right_comm i 1 k]
        rfl
  refine ⟨h1 l 0, ?_, fun k => by rw [h2 l 0 k, Nat.zero_add]⟩
  rw [List.nodup_iff_pairwise_ne, List.pairwise_iff_getElem]
  intro a b ha hb hab e
  rw [List.length_map] at ha hb
  have hl : (indexed 0 l).list.length = l.length := by
    have := congrArg List.length (h1 l 0)
    rwa [List.length_map] at this
  have ga := h2 l 0 a
  have gb := h2 l 0 b
  rw [List.getElem?_eq_getElem ha, List.getElem?_eq_getElem (hl ▸ ha)] at ga
  rw [List.getElem?_eq_getElem hb, List.getElem?_eq_getElem (hl ▸ hb)] at gb
  rw [List.getElem_map, List.getElem_map] at e
  have ga := Option.some.inj ga
  have gb := Option.some.inj gb
  dsimp only at ga gb
  rw [ga, gb] at e
  have e := List.append_cancel_left (String.ofList_injective e)
  rw [Nat.zero_add, Nat.zero_add] at e
  have : a = b := dec_inj e
  omega

/-- **C95.** A tuple is flattened to its items in order; other types stay as they are. -/
theorem C95_flatten (name : String) (t : Ty) : flatten name t = match t with | .tuple ts => ts.list | t => [(name, t)] := by
  have h : ∀ (l : List (String × Ty)) (n : Nat), l.length ≤ n → popAll n l.reverse = l := by
    intro l
    induction l with
    | nil => intro n _; cases n <;> rfl
    | cons x l ih =>
      intro n hn
      rw [List.length_cons] at hn
      cases n with
      | zero => omega
      | succ n =>
        rw [popAll, List.reverse_cons, List.getLast?_concat]
        dsimp only
        rw [List.dropLast_concat, ih n (by omega)]
  cases t with
  | tuple ts => exact h ts.list _ (Nat.le_succ _)
  | _ => rfl

/-! ### Findings and examples -/

/-- The description of a contract with two functions of one name (and one more), an event and one field of data. -/
def exDescr : ContractJson :=
  { abiVersion := some 2, version := some "2.3".toList, header := ["pubkey".toList, "time".toList, "expire".toList],
    functions := [⟨"f", .cons (.plain "a" "uint8".toList) .nil, .nil, some "0x1".toList⟩, ⟨"f", .cons (.plain "a" "uint16".toList) .nil, .nil, some "0x2".toList⟩,
      ⟨"g", .cons (.composite "t" "tuple[]".toList (.cons (.plain "x" "bool".toList) .nil)) .nil, .cons (.plain "r" "address".toList) .nil, none⟩],
    events := [⟨"h", .cons (.plain "a" "cell".toList) .nil, none⟩], data := [⟨1, .plain "n" "uint32".toList⟩], fields := .cons (.plain "p" "uint256".toList) .nil }

theorem exDescr_readable : Readable exDescr := by
  refine ⟨⟨⟨2, 3⟩, .text _ _ rfl (by decide +kernel)⟩, by decide +kernel, ?_, ?_, ?_, by decide +kernel⟩
  · intro f hf
    rcases List.mem_cons.1 hf with rfl | hf
    · exact ⟨by decide +kernel, by decide +kernel, fun s hs => by injection hs with hs; subst hs; decide +kernel⟩
    rcases List.mem_cons.1 hf with rfl | hf
    · exact ⟨by decide +kernel, by decide +kernel, fun s hs => by injection hs with hs; subst hs; decide +kernel⟩
    rcases List.mem_cons.1 hf with rfl | hf
    · exact ⟨by decide +kernel, by decide +kernel, fun s hs => (nomatch hs)⟩
    cases hf
  · intro f hf
    rcases List.mem_cons.1 hf with rfl | hf
    · exact ⟨by decide +kernel, fun s hs => (nomatch hs)⟩
    cases hf
  · intro f hf
    rcases List.mem_cons.1 hf with rfl | hf
    · decide +kernel
    cases hf

/-- It is accepted, whatever the hash function. -/
example (sha : List Byte → List Byte) : (readContract sha exDescr).isSome = true := (C95_accepts sha exDescr).2 exDescr_readable

/-- With a hash function that gives ones: the ids of the contract, and the version from the text and not from the number. -/
example : (match readContract (fun _ => List.replicate 32 0xff) exDescr with
    | some c => decide (c.ver.major = 2 ∧ c.ver.minor = 3 ∧ c.functions.map (·.1) = ["f", "g"] ∧ c.functions.map (·.2.inputId) = [2, 0x7fffffff] ∧
      c.functions.map (·.2.outputId) = [2, 0xffffffff] ∧ c.events.map (·.2.id) = [0x7fffffff] ∧ c.initData.map (·.2.key) = [1])
    | none => false) = true := by decide +kernel

/-- **C95, finding.** Functions of one name with different arguments (overloads, which have different ids) are collected into a map by name: only the last one is left, so
that calls of the others are not found by their ids. -/
theorem C95_overloads_lost (sha : List Byte → List Byte) : ∃ c, readContract sha exDescr = some c ∧
    (∃ x ∈ exDescr.functions, x.name = "f" ∧ (x.id.bind readId) = some 1) ∧ (∃ f, ("f", f) ∈ c.functions) ∧ (∀ f, ("f", f) ∈ c.functions → f.inputId = 2) ∧
    ∀ l : List Func, l.Perm (c.functions.map (·.2)) → ∀ f, findFunction l 1 true = some f → f.name = "g" := by
  obtain ⟨c, hc⟩ := Option.isSome_iff_exists.1 ((C95_accepts sha exDescr).2 exDescr_readable)
  have hd := C95_read sha exDescr c hc
  have key : ∀ n f, (n, f) ∈ c.functions → f.name = "g" ∨ n = "f" ∧ f.inputId = 2 := by
    intro n f hf
    obtain ⟨x, h1, h2⟩ := (hd.functions n f).1 hf
    rcases lastNamed_cons.1 h1 with h1 | ⟨rfl, e, hn⟩
    · rcases lastNamed_cons.1 h1 with h1 | ⟨rfl, e, hn⟩
      · rcases lastNamed_cons.1 h1 with h1 | ⟨rfl, e, hn⟩
        · obtain ⟨a, b, h1, _⟩ := h1
          cases a <;> cases h1
        · exact .inl h2.name
      · refine .inr ⟨e.symm, ?_⟩
        have : readId "0x2".toList = some f.inputId := h2.input
        have e2 : readId "0x2".toList = some 2 := by decide +kernel
        rw [e2] at this
        injection this with this
        exact this.symm
    · have := hn _ List.mem_cons_self
      exact absurd e this
  obtain ⟨⟨n0, f0⟩, hF⟩ : ∃ p, readFunction sha c.ver c.headers (exDescr.functions[1]'(by decide)) = some p := by
    obtain ⟨F, _, _, _, _, h3, _⟩ := readContract_parts hc
    exact Option.isSome_iff_exists.1 (readAll_some.1 (Option.isSome_iff_exists.2 ⟨F, h3⟩) _ (List.getElem_mem _))
  refine ⟨c, hc, ⟨_, List.mem_cons_self, rfl, by decide +kernel⟩, ⟨f0, (hd.functions _ _).2 ⟨_, ?_, (readFunction_iff.1 hF).2⟩⟩, fun f hf => ?_, fun l hl f hf => ?_⟩
  · exact ⟨[_], [_], rfl, rfl, fun y hy => by
      rcases List.mem_cons.1 hy with rfl | hy
      · decide
      · cases hy⟩
  · rcases key _ _ hf with h | h
    · obtain ⟨x, h1, h2⟩ := (hd.functions _ _).1 hf
      obtain ⟨_, _, _, h3, _⟩ := h1
      rw [h2.name, h3] at h
      exact absurd h (by decide)
    · exact h.2
  · unfold findFunction at hf
    have hm := List.mem_of_find?_eq_some hf
    have hp := List.find?_some hf
    obtain ⟨⟨n, g⟩, h1, h2⟩ := List.mem_map.1 (hl.mem_iff.1 hm)
    change g = f at h2
    subst h2
    rcases key n g h1 with h | ⟨_, h⟩
    · exact h
    · simp [h] at hp

/-- The function of `exFunc` in a description of version 2.3, with a call of it: all hypotheses of `C95_calls_partial` hold. -/
def exOne : ContractJson :=
  { abiVersion := none, version := some "2.3".toList, header := [],
    functions := [⟨"f", .cons (.plain "a" "uint800".toList) (.cons (.plain "b" "cell".toList) (.cons (.composite "c" "tuple".toList (.cons (.plain "x" "bool".toList) .nil)) .nil)),
      .cons (.plain "r" "bool".toList) .nil, some "0xdeadbeef".toList⟩, ⟨"k", .nil, .nil, some "0x7".toList⟩], events := [], data := [], fields := .nil }

def exOneFunc : Func := { exFunc ⟨2, 3⟩ [] (some 0xdeadbeef) with name := "f" }

example : (match readContract (fun _ => []) exOne with
    | some c => decide (c.ver.major = 2 ∧ c.functions.map (·.1) = ["f", "k"] ∧ (c.functions.map (·.2.inputId)) = [0xdeadbeef, 7] ∧ (c.functions.map (·.2.ver.minor)) = [3, 3]) &&
      (c.functions.map (fun x => decide ((x.2.inputs.texts, x.2.outputs.texts) = (exOneFunc.inputs.texts, exOneFunc.outputs.texts)))) == [true, false]
    | none => false) = true := by decide +kernel
example : GoodItems ⟨2, 3⟩ (exArgs.named exOneFunc.inputs) ∧ Regular ⟨2, 3⟩ (idTuple exOneFunc.inputId (exArgs.named exOneFunc.inputs)) ∧
    (exOneFunc.encodeInternal anyCell exArgs).isOk = true := ⟨exArgs_good ⟨2, 3⟩ [] none, Or.inr (Or.inl rfl), by decide +kernel⟩

/-- Equal hashes of different signatures: with a hash function that is constant all functions have one id. -/
example : HashClash (fun _ => []) "f()()v2".toList "g()()v2".toList := by unfold HashClash; decide +kernel

example : flatten "t" (.tuple (.cons "a" .bool (.cons "b" .cell .nil))) = [("a", .bool), ("b", .cell)] := by rw [C95_flatten]; rfl
example : ((indexed 0 [.bool, .cell]).list.map (·.1)) = ["value0", "value1"] := by decide +kernel
example : readId "0x+5".toList = some 5 ∧ readId "0X5".toList = none ∧ readId "5".toList = none ∧ readId "0x".toList = none ∧ readId "0x100000000".toList = none ∧
    readId "0xDEADbeef".toList = some 0xdeadbeef := by decide +kernel

end Abi
end Verif
