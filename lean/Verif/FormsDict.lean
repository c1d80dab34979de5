import Verif.FormsLemmas
import Verif.CurrencyProps
import Verif.ConfigDictProps
/-
Dictionaries and lists of keys as maps and sequences of `serde`: lemmas for C93.
-/
set_option linter.unusedVariables false
namespace Verif
namespace Form

/-! ### Tries whose values have references -/

/-- A well-formed cell with fewer than `d` levels below it. -/
def Shallow (H : Hasher) (d : Nat) (c : Cell) : Prop := c.WF H ∧ ∀ l, (c.info H).depth l < d

theorem Shallow.mono {H : Hasher} {d d' : Nat} {c : Cell} (h : Shallow H d c) (hd : d ≤ d') : Shallow H d' c :=
  ⟨h.1, fun l => Nat.lt_of_lt_of_le (h.2 l) hd⟩

theorem shallow_mk {H : Hasher} {d : Nat} {b : Bits} {rs : List Cell} (hd : d ≤ 65535) (hb : b.length ≤ 1023) (hn : rs.length ≤ 4)
    (hr : ∀ r ∈ rs, Shallow H d r) : Shallow H (d + 1) (.mk false b rs) := by
  refine ⟨⟨⟨.ordinary, rfl, ?_, ?_⟩, (wfList_iff H rs).mpr fun r h => (hr r h).1⟩, ?_⟩
  · show (if _ ∧ _ then _ else _) ≠ none
    rw [if_pos ⟨hb, by simp [infoList_eq, hn]⟩]
    exact fun h => by cases h
  · intro l _ _ i hi
    rw [infoList_eq] at hi
    obtain ⟨c, hc, rfl⟩ := List.mem_map.mp hi
    exact Nat.lt_of_lt_of_le ((hr c hc).2 _) (by omega)
  · intro l
    show levelDepth _ 0 (Cell.infoList H rs) l < d + 1
    refine levelDepth_lt (fun i hi => ?_) _ _ l
    rw [infoList_eq] at hi
    obtain ⟨c, hc, rfl⟩ := List.mem_map.mp hi
    exact (hr c hc).2

/-- A value of at most `B` bits, with references to cells of fewer than `D` levels. -/
def RefsVal (H : Hasher) (B D : Nat) (v : Sl) : Prop := v.bits.length ≤ B ∧ v.refs.length ≤ 4 ∧ ∀ r ∈ v.refs, Shallow H D r

theorem canon_shallow {H : Hasher} {N B D : Nat} (hB : 2 + bitsForLen N + N + B ≤ 1023) (hD : D + N ≤ 65535) :
    ∀ {n : Nat} {t : Trie}, n ≤ N → t.Sized n → t.Canon n → (∀ k v, t.lookup k = some v → RefsVal H B D v) → Shallow H (D + n + 1) t.cell
  | n, .leaf l e v, hn, hs, hc, hv => by
    have hsm := hv l v (by rw [Trie.lookup_leaf, if_pos rfl])
    have h1 := labelBits_le l n (Nat.le_of_eq hs.1)
    have h2 := bitsForLen_mono hn
    have h3 := hs.1
    have hc : e = labelBits l n := hc
    refine shallow_mk (by omega) ?_ hsm.2.1 fun r hr => (hsm.2.2 r hr).mono (by omega)
    have := hsm.1
    rw [hc, List.length_append]
    omega
  | n, .fork l e x a b, hn, hs, hc, hv => by
    have h1 := labelBits_le l n (Nat.le_of_lt hs.1)
    have h2 := bitsForLen_mono hn
    have h3 := hs.1
    have ha := canon_shallow hB hD (by omega) hs.2.2.1 hc.2.2.1 fun k v hk => hv (l ++ false :: k) v (by rw [Trie.lookup_fork]; exact hk)
    have hb := canon_shallow hB hD (by omega) hs.2.2.2 hc.2.2.2 fun k v hk => hv (l ++ true :: k) v (by rw [Trie.lookup_fork]; exact hk)
    refine shallow_mk (by omega) ?_ ?_ ?_
    · rw [hc.1, hc.2.1, Sl.empty, List.append_nil]
      omega
    · rw [hc.2.1]; simp [Sl.empty]
    · rw [hc.2.1]
      intro r hr
      simp only [Sl.empty, List.mem_cons, List.not_mem_nil, or_false] at hr
      rcases hr with rfl | rfl
      · exact ha.mono (by omega)
      · exact hb.mono (by omega)

theorem fits_refs {H : Hasher} {N B D : Nat} (hB : 2 + bitsForLen N + N + B ≤ 1023) (hD : D + N ≤ 65535) :
    ∀ {n : Nat} {t : Trie}, n ≤ N → t.Sized n → t.Canon n → (∀ k v, t.lookup k = some v → RefsVal H B D v) → t.Fits (Boc.emptyContext H)
  | n, .leaf l e v, hn, hs, hc, hv => by
    have h := canon_shallow hB hD hn hs hc hv
    have hsm := hv l v (by rw [Trie.lookup_leaf, if_pos rfl])
    have h1 := labelBits_le l n (Nat.le_of_eq hs.1)
    have h2 := bitsForLen_mono hn
    have h3 := hs.1
    have hc : e = labelBits l n := hc
    refine ⟨?_, hsm.2.1, (Boc.C91_context H _).2 h.1⟩
    have := hsm.1
    show (e ++ v.bits).length ≤ 1023
    rw [hc, List.length_append]
    omega
  | n, .fork l e x a b, hn, hs, hc, hv => by
    have h := canon_shallow hB hD hn hs hc hv
    have h1 := labelBits_le l n (Nat.le_of_lt hs.1)
    have h2 := bitsForLen_mono hn
    have h3 := hs.1
    refine ⟨⟨?_, ?_, (Boc.C91_context H _).2 h.1⟩,
      fits_refs hB hD (by omega) hs.2.2.1 hc.2.2.1 fun k v hk => hv (l ++ false :: k) v (by rw [Trie.lookup_fork]; exact hk),
      fits_refs hB hD (by omega) hs.2.2.2 hc.2.2.2 fun k v hk => hv (l ++ true :: k) v (by rw [Trie.lookup_fork]; exact hk)⟩
    · show (e ++ x.bits).length ≤ 1023
      rw [hc.1, hc.2.1, Sl.empty, List.append_nil]
      omega
    · show (a.cell :: b.cell :: x.refs).length ≤ 4
      rw [hc.2.1]; simp [Sl.empty]

theorem fitsAll_refs {H : Hasher} {n B D : Nat} (hB : 2 + bitsForLen n + n + B ≤ 1023) (hD : D + n ≤ 65535) :
    FitsAll (Boc.emptyContext H) n (RefsVal H B D) :=
  fun t h1 h2 h3 => fits_refs hB hD (Nat.le_refl n) h1 h2 h3

/-! ### Setting entries one after another -/

section
variable {κ β : Type} [DecidableEq κ]

/-- Specification: the map after the entries were set one after another. -/
def puts (tm : κ → Option β) (es : List (κ × β)) : κ → Option β := es.foldl (fun m e k => if k = e.1 then some e.2 else m k) tm

theorem puts_cons (tm : κ → Option β) (e : κ × β) (es : List (κ × β)) : puts tm (e :: es) = puts (fun k => if k = e.1 then some e.2 else tm k) es := rfl

theorem puts_append (tm : κ → Option β) (es es' : List (κ × β)) : puts tm (es ++ es') = puts (puts tm es) es' := by
  unfold puts; rw [List.foldl_append]

/-- The last entry of a key counts. -/
theorem puts_last (es : List (κ × β)) (x : κ) : puts (fun _ => none) es x = (es.reverse.find? fun e => e.1 = x).map Prod.snd := by
  have key : ∀ (es : List (κ × β)) (tm : κ → Option β),
      puts tm es x = match es.reverse.find? fun e => e.1 = x with | some e => some e.2 | none => tm x := by
    intro es
    induction es with
    | nil => intro tm; rfl
    | cons e es ih =>
      intro tm
      rw [puts_cons, ih, List.reverse_cons, List.find?_append]
      cases es.reverse.find? fun e => e.1 = x with
      | some e' => rfl
      | none =>
        by_cases h : x = e.1
        · simp [h]
        · simp [h, Ne.symm h]
  rw [key]
  cases es.reverse.find? fun e => e.1 = x <;> rfl

theorem puts_nodup : ∀ {es : List (κ × β)} {tm : κ → Option β}, (es.map Prod.fst).Nodup → ∀ x v,
    puts tm es x = some v ↔ (x, v) ∈ es ∨ x ∉ es.map Prod.fst ∧ tm x = some v
  | [], tm, _, x, v => by simp [puts]
  | e :: es, tm, h, x, v => by
    obtain ⟨k, w⟩ := e
    rw [List.map_cons, List.nodup_cons] at h
    rw [puts_cons, puts_nodup h.2]
    by_cases hx : x = k
    · subst hx
      have hn : (x, v) ∉ es := fun g => h.1 (List.mem_map.2 ⟨_, g, rfl⟩)
      have hx : x ∉ es.map Prod.fst := h.1
      simp only [List.mem_cons, List.map_cons, Prod.mk.injEq, true_and, if_true]
      constructor
      · rintro (g | ⟨_, g⟩)
        · exact absurd g hn
        · injection g with g; exact .inl (.inl g.symm)
      · rintro ((g | g) | ⟨g, _⟩)
        · exact .inr ⟨hx, by rw [g]⟩
        · exact absurd g hn
        · exact absurd (Or.inl trivial) g
    · simp only [List.mem_cons, List.map_cons, Prod.mk.injEq, hx, false_and, false_or, if_false]

theorem lastWins_spec (es : List (κ × β)) : ((lastWins es).map Prod.fst).Nodup ∧ ∀ x v, (x, v) ∈ lastWins es ↔ puts (fun _ => none) es x = some v := by
  have key : ∀ (es m : List (κ × β)) (tm : κ → Option β), (m.map Prod.fst).Nodup → (∀ x v, (x, v) ∈ m ↔ tm x = some v) →
      ((es.foldl (fun m e => m.filter (fun x => x.1 ≠ e.1) ++ [e]) m).map Prod.fst).Nodup ∧
      ∀ x v, (x, v) ∈ es.foldl (fun m e => m.filter (fun x => x.1 ≠ e.1) ++ [e]) m ↔ puts tm es x = some v := by
    intro es
    induction es with
    | nil => intro m tm h1 h2; exact ⟨h1, h2⟩
    | cons e es ih =>
      intro m tm h1 h2
      obtain ⟨k, w⟩ := e
      rw [List.foldl_cons, puts_cons]
      refine ih _ _ ?_ ?_
      · rw [List.map_append, List.nodup_append]
        refine ⟨(List.Sublist.map Prod.fst List.filter_sublist).nodup h1, by simp, ?_⟩
        intro a ha b hb
        obtain ⟨p, hp, rfl⟩ := List.mem_map.1 ha
        have hp := (List.mem_filter.1 hp).2
        simp only [List.map_cons, List.map_nil, List.mem_singleton] at hb
        subst hb
        simpa using hp
      · intro x v
        rw [List.mem_append, List.mem_filter, h2]
        by_cases hx : x = k
        · subst hx
          simp [eq_comm]
        · simp [hx]
  exact key es [] _ (by simp) (by simp)

theorem lastWins_nodup {es : List (κ × β)} (h : (es.map Prod.fst).Nodup) (x : κ) : puts (fun _ => none) (lastWins es) x = puts (fun _ => none) es x := by
  have := lastWins_spec es
  refine Option.ext fun v => ?_
  rw [puts_nodup this.1, this.2, puts_nodup h]
  simp

theorem perm_puts {es es' : List (κ × β)} (h : (es.map Prod.fst).Nodup) (hp : es'.Perm es) (x : κ) : puts (fun _ => none) es' x = puts (fun _ => none) es x := by
  have h' : (es'.map Prod.fst).Nodup := (hp.map Prod.fst).nodup_iff.2 h
  refine Option.ext fun v => ?_
  rw [puts_nodup h', puts_nodup h, hp.mem_iff]
  simp

theorem shuffled_puts (es : List (κ × β)) {es' : List (κ × β)} (hp : es'.Perm (lastWins es)) (x : κ) :
    puts (fun _ => none) es' x = puts (fun _ => none) es x := by
  have := lastWins_spec es
  rw [perm_puts this.1 hp]
  refine Option.ext fun v => ?_
  rw [puts_nodup this.1, this.2]
  simp

variable {T : DictType κ β} {okK : κ → Prop} {encK : κ → Bits} {okV : β → Prop} {R : β → Enc Cell → Prop} {enc : β → Enc Cell}

theorem setAll_inv (hK : KeyCodes T.key okK encK) (hb : T.key.bits ≤ 1023) (hV : Codes okV T.store T.load R enc) (hf : ∀ v, okV v → (enc v).Fits)
    (acc : Cell → Bool) : ∀ {es : List (κ × β)} {d d' : Option Cell} {tm : κ → Option β}, IsDictC T okK encK okV enc acc d tm →
    (∀ e ∈ es, okK e.1 ∧ okV e.2) → setAll T acc d es = some d' → IsDictC T okK encK okV enc acc d' (puts tm es)
  | [], d, d', tm, hd, he, h => by
    injection h with h; subst h; exact hd
  | (k, v) :: es, d, d', tm, hd, he, h => by
    have h0 := he (k, v) List.mem_cons_self
    unfold setAll at h
    rcases C57_step hK hb hV hf acc hd (.insert .set k v) h0 with ⟨g1, g2⟩ | ⟨_, ⟨e, g⟩, _⟩
    · have g1 : (T.insert acc d k v .set).1.map TOut.flag = _ := g1
      have g2 : IsDictC T okK encK okV enc acc (T.insert acc d k v .set).2 _ := g2
      revert g1 g2 h
      generalize T.insert acc d k v .set = out
      obtain ⟨a, d1⟩ := out
      intro h g1 g2
      cases a with
      | error e => cases h
      | ok b =>
        have h : setAll T acc d1 es = some d' := h
        have := setAll_inv (es := es) hK hb hV hf acc g2 (fun e he' => he e (List.mem_cons_of_mem _ he')) h
        exact this
    · have g : (T.insert acc d k v .set).1.map TOut.flag = _ := g
      revert g h
      generalize T.insert acc d k v .set = out
      obtain ⟨a, d1⟩ := out
      intro h g
      cases a with
      | error e => cases h
      | ok b => cases g

omit [DecidableEq κ] in
theorem slOf_exactly {v : β} {s : Sl} (h : IsExactly okV enc v s) : s = slOf (enc v) := by
  have := h.2.2
  obtain ⟨b, r⟩ := s
  unfold slOf
  rw [← this]

/-- One more entry fits, if all tries over such values can be built. -/
theorem put_representable (hK : KeyCodes T.key okK encK) (hb : T.key.bits ≤ 1023) (hV : Codes okV T.store T.load R enc)
    (hf : ∀ v, okV v → (enc v).Fits) {acc : Cell → Bool} {Q : Sl → Prop} (hfit : FitsAll acc T.key.bits Q)
    {d : Option Cell} {tm : κ → Option β} (hd : IsDictC T okK encK okV enc acc d tm) (hq : ∀ y v, okK y → tm y = some v → Q (slOf (enc v)))
    {x : κ} (hx : okK x) {v : β} (hv : okV v) (hqv : Q (slOf (enc v))) :
    ∃ d', IsDictC T okK encK okV enc acc d' (fun k => if k = x then some v else tm k) := by
  have ht := typed_exactly hK hb hV hf
  obtain ⟨m, h1, h2⟩ := hd
  have hm : ∀ k v, k.length = T.key.bits → m k = some v → Q v := by
    intro k s hk hs
    obtain ⟨y, hy, ey⟩ := h2.1 k s hk hs
    have := h2.2 y hy
    rw [ey, hs] at this
    obtain ⟨v, hv, hh⟩ := entryIs_some this
    rw [slOf_exactly hh]
    exact hq y v hy hv
  have hex : IsExactly okV enc v (slOf (enc v)) := ⟨hv, hf v hv, rfl⟩
  obtain ⟨d', h'⟩ := representable_put hfit h1 hm (ht.keyOf hx).2 hqv
  exact ⟨d', _, h', h2.put ht hx hex⟩

theorem setAll_ok (hK : KeyCodes T.key okK encK) (hb : T.key.bits ≤ 1023) (hV : Codes okV T.store T.load R enc) (hf : ∀ v, okV v → (enc v).Fits)
    {acc : Cell → Bool} {Q : Sl → Prop} (hfit : FitsAll acc T.key.bits Q) :
    ∀ {es : List (κ × β)} {d : Option Cell} {tm : κ → Option β}, IsDictC T okK encK okV enc acc d tm →
    (∀ y v, okK y → tm y = some v → Q (slOf (enc v))) →
    (∀ e ∈ es, okK e.1 ∧ okV e.2 ∧ Q (slOf (enc e.2))) → ∃ d', setAll T acc d es = some d'
  | [], d, tm, hd, hq, he => ⟨d, rfl⟩
  | (k, v) :: es, d, tm, hd, hq, he => by
    have h0 := he (k, v) List.mem_cons_self
    rcases C57_step hK hb hV hf acc hd (.insert .set k v) ⟨h0.1, h0.2.1⟩ with ⟨g1, g2⟩ | ⟨_, _, _, g⟩
    · have g1 : (T.insert acc d k v .set).1.map TOut.flag = _ := g1
      have g2 : IsDictC T okK encK okV enc acc (T.insert acc d k v .set).2 (fun k' => if k' = k then some v else tm k') := g2
      unfold setAll
      revert g1 g2
      generalize T.insert acc d k v .set = out
      obtain ⟨a, d1⟩ := out
      intro g1 g2
      cases a with
      | error e => cases g1
      | ok b =>
        refine setAll_ok (es := es) hK hb hV hf hfit g2 (fun y w hy hw => ?_) (fun e he' => he e (List.mem_cons_of_mem _ he'))
        by_cases g : y = k
        · rw [if_pos g] at hw; injection hw with hw; subst hw; exact h0.2.2
        · rw [if_neg g] at hw; exact hq y w hy hw
    · exact absurd (put_representable hK hb hV hf hfit hd hq h0.1 h0.2.1 h0.2.2) g

/-! ### Maps -/

omit [DecidableEq κ] in
theorem write_read {K : Form κ} {V : κ → Form β} {r : Bool} {okE : κ → β → Prop} (hK : Back K r okK) (hV : ∀ k, okK k → Back (V k) r (okE k)) :
    ∀ {l : List (κ × β)}, (∀ e ∈ l, okK e.1 ∧ okE e.1 e.2) → ∃ m, writeMap K V r (l.map .ok) = some m ∧ readMap K V r m = some l
  | [], _ => ⟨[], rfl, rfl⟩
  | (k, v) :: l, h => by
    obtain ⟨m, h1, h2⟩ := write_read hK hV (l := l) fun e he => h e (List.mem_cons_of_mem _ he)
    have h0 := h (k, v) List.mem_cons_self
    obtain ⟨a, h3, h4⟩ := hK k h0.1
    obtain ⟨b, h5, h6⟩ := hV k h0.1 v h0.2
    refine ⟨(a, b) :: m, ?_, ?_⟩
    · rw [List.map_cons]
      unfold writeMap
      rw [h3]; dsimp only; rw [h5]; dsimp only; rw [h1]; rfl
    · unfold readMap
      rw [h4]; dsimp only; rw [h6]; dsimp only; rw [h2]; rfl

omit [DecidableEq κ] in
theorem readMap_ok {K : Form κ} {V : κ → Form β} {r : Bool} {okE : κ → β → Prop} (hK : Only K r okK) (hV : ∀ k, okK k → Only (V k) r (okE k)) :
    ∀ {m : List (SV × SV)} {l : List (κ × β)}, readMap K V r m = some l → ∀ e ∈ l, okK e.1 ∧ okE e.1 e.2
  | [], l, h => by injection h with h; subst h; intro e he; cases he
  | (a, b) :: m, l, h => by
    unfold readMap at h
    cases hk : K.de r a with
    | none => rw [hk] at h; cases h
    | some k =>
      rw [hk] at h
      dsimp only at h
      cases hv : (V k).de r b with
      | none => rw [hv] at h; cases h
      | some v =>
        rw [hv] at h
        dsimp only at h
        obtain ⟨es, h1, h2⟩ := Option.map_eq_some_iff.1 h
        subst h2
        intro e he
        cases he with
        | head => exact ⟨hK _ _ hk, hV k (hK _ _ hk) _ _ hv⟩
        | tail _ he => exact readMap_ok hK hV h1 e he

omit [DecidableEq κ] in
theorem listing_nodup {tm : κ → Option β} {l : List (κ × β)} (h : TListing okK encK false false tm l) : (l.map Prod.fst).Nodup := by
  rw [List.Nodup, List.pairwise_map]
  refine h.1.imp ?_
  intro p q hpq e
  unfold keyBefore at hpq
  rw [if_neg (by decide), e] at hpq
  omega

theorem listing_puts {tm : κ → Option β} {l : List (κ × β)} (h : TListing okK encK false false tm l) {x : κ} (hx : okK x) :
    puts (fun _ => none) l x = tm x := by
  refine Option.ext fun v => ?_
  rw [puts_nodup (listing_nodup h), h.2]
  simp [hx]

omit [DecidableEq κ] in
theorem entryIs_imp {P Q : β → Sl → Prop} (h : ∀ v s, P v s → Q v s) {o : Option β} {s : Option Sl} (g : EntryIs P o s) : EntryIs Q o s := by
  cases o <;> cases s
  · trivial
  · exact g.elim
  · exact g.elim
  · exact h _ _ g

omit [DecidableEq κ] in
/-- What an iterator over a canonical dictionary yields. -/
theorem entries_ok (hK : KeyCodes T.key okK encK) (hb : T.key.bits ≤ 1023) (hV : Codes okV T.store T.load R enc) (hf : ∀ v, okV v → (enc v).Fits)
    {acc : Cell → Bool} {d : Option Cell} {tm : κ → Option β} (hd : IsDictC T okK encK okV enc acc d tm) :
    ∃ l, TListing okK encK false false tm l ∧ T.entries d = l.map .ok ∧ ∀ e ∈ l, okK e.1 ∧ okV e.2 := by
  obtain ⟨m, h1, h2⟩ := hd
  have hd' : IsDict T okK encK R acc d tm :=
    ⟨m, representsC_any h1, h2.1, fun x hx => entryIs_imp (fun v s h => holds_exactly hV h) (h2.2 x hx)⟩
  obtain ⟨_, l, g1, g2⟩ := C57_iter hK hb hV hf acc hd'
  refine ⟨l, g1, g2, ?_⟩
  rintro ⟨x, v⟩ he
  obtain ⟨hx, hv⟩ := (g1.2 x v).1 he
  refine ⟨hx, ?_⟩
  have := h2.2 x hx
  rw [hv] at this
  cases hm : m (encK x) with
  | none => rw [hm] at this; exact this.elim
  | some s => rw [hm] at this; exact this.1

/-- A hash map yields every entry once. -/
def Fair (sh : Shuffle) : Prop := ∀ (γ : Type) (l : List γ), (sh γ l).Perm l

section
variable {H : Hasher} {sh : Shuffle} {K : Form κ} {V : Form β} {okW : β → Prop}

/-- A canonical dictionary whose values have `okW`. -/
def DictOf (H : Hasher) (T : DictType κ β) (okK : κ → Prop) (encK : κ → Bits) (okV : β → Prop) (enc : β → Enc Cell) (okW : β → Prop) (d : Option Cell) : Prop :=
  ∃ tm, IsDictC T okK encK okV enc (Boc.emptyContext H) d tm ∧ ∀ x v, okK x → tm x = some v → okW v

/-- The entries that are written are those of the dictionary, and the same entries are read. -/
theorem dict_shown (hK : KeyCodes T.key okK encK) (hb : T.key.bits ≤ 1023) (hV : Codes okV T.store T.load R enc) (hf : ∀ v, okV v → (enc v).Fits)
    (bK : Back K true okK) (bV : Back V true okW) {d : Option Cell} {tm : κ → Option β}
    (hd : IsDictC T okK encK okV enc (Boc.emptyContext H) d tm) (hw : ∀ x v, okK x → tm x = some v → okW v) :
    ∃ m l, (dict H sh T K V).ser true d = some (.map m) ∧ readMap K (fun _ => V) true m = some l ∧ TListing okK encK false false tm l ∧
      ∀ e ∈ l, okK e.1 ∧ okV e.2 := by
  obtain ⟨l, h1, h2, h3⟩ := entries_ok hK hb hV hf hd
  have h4 : ∀ e ∈ l, okK e.1 ∧ okW e.2 := by
    rintro ⟨x, v⟩ he
    have := (h1.2 x v).1 he
    exact ⟨this.1, hw x v this.1 this.2⟩
  obtain ⟨m, g1, g2⟩ := write_read (okE := fun _ => okW) bK (fun _ _ => bV) h4
  refine ⟨m, l, ?_, g2, h1, h3⟩
  show (writeMap K (fun _ => V) true (T.entries d)).map SV.map = _
  rw [h2, g1]
  rfl

/-- What is read from a map: a dictionary of its entries, where of equal keys the last one counts. -/
theorem dict_read (hsh : Fair sh) (hK : KeyCodes T.key okK encK) (hb : T.key.bits ≤ 1023) (hV : Codes okV T.store T.load R enc)
    (hf : ∀ v, okV v → (enc v).Fits) {m : List (SV × SV)} {l : List (κ × β)} (hl : readMap K (fun _ => V) true m = some l)
    (ho : ∀ e ∈ l, okK e.1 ∧ okV e.2) {d : Option Cell} (h : (dict H sh T K V).de true (.map m) = some d) :
    ∃ tm, IsDictC T okK encK okV enc (Boc.emptyContext H) d tm ∧ ∀ x, tm x = puts (fun _ => none) l x := by
  have h : (match readMap K (fun _ => V) true m with
    | some es => setAll T (Boc.emptyContext H) none (sh _ (lastWins es))
    | none => none) = some d := h
  rw [hl] at h
  have ho' : ∀ e ∈ sh _ (lastWins l), okK e.1 ∧ okV e.2 := by
    rintro ⟨x, v⟩ he
    have he := (hsh _ _).mem_iff.1 he
    rw [(lastWins_spec l).2] at he
    have hin : ∀ {es : List (κ × β)} {tm : κ → Option β}, puts tm es x = some v → (x, v) ∈ es ∨ tm x = some v := by
      intro es
      induction es with
      | nil => exact fun h => .inr h
      | cons e es ih =>
        intro tm h
        rw [puts_cons] at h
        rcases ih h with g | g
        · exact .inl (List.mem_cons_of_mem _ g)
        · by_cases hx : x = e.1
          · rw [if_pos hx] at g
            injection g with g
            exact .inl (by rw [hx, ← g]; exact List.mem_cons_self)
          · rw [if_neg hx] at g; exact .inr g
    rcases hin he with g | g
    · exact ho _ g
    · cases g
  exact ⟨_, setAll_inv hK hb hV hf _ (C57_empty _) ho' h, fun x => shuffled_puts l (hsh _ _) x⟩

omit [DecidableEq κ] in
theorem isDictC_congr {acc : Cell → Bool} {d : Option Cell} {tm tm' : κ → Option β} (h : IsDictC T okK encK okV enc acc d tm)
    (e : ∀ x, okK x → tm' x = tm x) : IsDictC T okK encK okV enc acc d tm' := by
  obtain ⟨m, h1, h2, h3⟩ := h
  exact ⟨m, h1, h2, fun x hx => by rw [e x hx]; exact h3 x hx⟩

theorem back_dict (hsh : Fair sh) (hK : KeyCodes T.key okK encK) (hb : T.key.bits ≤ 1023) (hV : Codes okV T.store T.load R enc)
    (hf : ∀ v, okV v → (enc v).Fits) {Q : Sl → Prop} (hfit : FitsAll (Boc.emptyContext H) T.key.bits Q) (hQ : ∀ v, okV v → okW v → Q (slOf (enc v)))
    (bK : Back K true okK) (bV : Back V true okW) : Back (dict H sh T K V) true (DictOf H T okK encK okV enc okW) := by
  rintro d ⟨tm, hd, hw⟩
  obtain ⟨m, l, h1, h2, h3, h4⟩ := dict_shown (sh := sh) hK hb hV hf bK bV hd hw
  refine ⟨.map m, h1, ?_⟩
  have h5 : ∀ e ∈ sh _ (lastWins l), okK e.1 ∧ okV e.2 ∧ Q (slOf (enc e.2)) := by
    rintro ⟨x, v⟩ he
    have he := (hsh _ _).mem_iff.1 he
    rw [(lastWins_spec l).2, puts_nodup (listing_nodup h3)] at he
    rcases he with g | ⟨_, g⟩
    · have hx := (h3.2 x v).1 g
      exact ⟨(h4 _ g).1, (h4 _ g).2, hQ v (h4 _ g).2 (hw x v hx.1 hx.2)⟩
    · cases g
  obtain ⟨d', h6⟩ := setAll_ok hK hb hV hf hfit (C57_empty _) (fun y v _ h => by cases h) h5
  have h7 : (dict H sh T K V).de true (.map m) = some d' := by
    show (match readMap K (fun _ => V) true m with
      | some es => setAll T (Boc.emptyContext H) none (sh _ (lastWins es))
      | none => none) = some d'
    rw [h2]
    exact h6
  obtain ⟨tm', h8, h9⟩ := dict_read hsh hK hb hV hf h2 h4 h7
  rw [h7, C57_canonical h8 hd (fun x hx => by rw [h9, listing_puts h3 hx])]

end

/-! ### Lists of keys -/

section
variable {k : KeyType κ} {K : Form κ} {H : Hasher}

/-- A canonical dictionary of keys. -/
def KeysOf (H : Hasher) (k : KeyType κ) (okK : κ → Prop) (encK : κ → Bits) (d : Option Cell) (has : κ → Bool) : Prop :=
  IsDictC (keysType k) okK encK (fun _ => True) (fun _ => Enc.nil) (Boc.emptyContext H) d (fun x => if has x then some () else none)

omit [DecidableEq κ] in
theorem keysOf_ok (l : List (κ × Unit)) : keysOf (l.map .ok) = some (l.map Prod.fst) := by
  induction l with
  | nil => rfl
  | cons e l ih =>
    obtain ⟨k, u⟩ := e
    show (keysOf (l.map .ok)).map (k :: ·) = _
    rw [ih]; rfl

theorem puts_keys (ks : List κ) (x : κ) : puts (fun _ => none) (ks.map fun k => (k, ())) x = if x ∈ ks then some () else none := by
  have key : ∀ (ks : List κ) (tm : κ → Option Unit), puts tm (ks.map fun k => (k, ())) x = if x ∈ ks then some () else tm x := by
    intro ks
    induction ks with
    | nil => intro tm; simp [puts]
    | cons k ks ih =>
      intro tm
      rw [List.map_cons, puts_cons, ih]
      by_cases h1 : x ∈ ks
      · rw [if_pos h1, if_pos (List.mem_cons_of_mem _ h1)]
      · rw [if_neg h1]
        by_cases h2 : x = k
        · simp [h2]
        · simp [h1, h2]
  exact key ks _

/-- What is read from a list of keys: the dictionary of these keys. -/
theorem keys_read (hK : KeyCodes k okK encK) (hb : 2 + bitsForLen k.bits + k.bits ≤ 1023) (r nonEmpty : Bool) {x : SV} {ks : List κ}
    (h : (vec K).de r x = some ks) (ho : ∀ y ∈ ks, okK y) (hne : nonEmpty = true → ks ≠ []) :
    ∃ d, (keys H nonEmpty k K).de r x = some d ∧ KeysOf H k okK encK d (fun y => decide (y ∈ ks)) := by
  have hb' : (keysType k).key.bits ≤ 1023 := by show k.bits ≤ 1023; omega
  have he : ∀ e ∈ ks.map (fun k => (k, ())), okK e.1 ∧ True := by
    intro e he
    obtain ⟨y, hy, rfl⟩ := List.mem_map.1 he
    exact ⟨ho y hy, trivial⟩
  obtain ⟨d, h1⟩ := setAll_ok (T := keysType k) (es := ks.map (fun k => (k, ()))) hK hb' Config.unit_codes
    (fun _ _ => ⟨Nat.zero_le _, Nat.zero_le _⟩) (fitsAll_refs (H := H) (B := 0) (D := 0) hb (by show 0 + k.bits ≤ 65535; omega))
    (C57_empty _) (fun y v _ h => by cases h)
    (fun e h => ⟨(he e h).1, trivial, Nat.le_refl _, Nat.zero_le _, fun r hr => by cases hr⟩)
  refine ⟨d, ?_, ?_⟩
  · unfold keys
    dsimp only
    rw [h]
    dsimp only
    rw [if_neg, h1]
    cases nonEmpty with
    | false => simp
    | true => simpa using hne rfl
  · refine isDictC_congr (setAll_inv (T := keysType k) hK hb' Config.unit_codes (fun _ _ => ⟨Nat.zero_le _, Nat.zero_le _⟩) _ (C57_empty _) he h1) ?_
    intro y hy
    rw [puts_keys]
    by_cases g : y ∈ ks
    · rw [if_pos g, if_pos (decide_eq_true g)]
    · rw [if_neg g, if_neg (by simpa using g)]

theorem back_keys (hK : KeyCodes k okK encK) (hb : 2 + bitsForLen k.bits + k.bits ≤ 1023) (r nonEmpty : Bool) (bK : Back K r okK) :
    Back (keys H nonEmpty k K) r (fun d => (∃ has, KeysOf H k okK encK d has) ∧ (nonEmpty = true → d ≠ none)) := by
  rintro d ⟨⟨has, hd⟩, hne⟩
  have hb' : (keysType k).key.bits ≤ 1023 := by show k.bits ≤ 1023; omega
  obtain ⟨l, h1, h2, h3⟩ := entries_ok (T := keysType k) hK hb' Config.unit_codes (fun _ _ => ⟨Nat.zero_le _, Nat.zero_le _⟩) hd
  obtain ⟨x, g1, g2⟩ := back_vec bK (l.map Prod.fst) (fun y hy => by obtain ⟨e, he, rfl⟩ := List.mem_map.1 hy; exact (h3 e he).1)
  obtain ⟨d', g3, g4⟩ := keys_read (H := H) hK hb r nonEmpty g2 (fun y hy => by obtain ⟨e, he, rfl⟩ := List.mem_map.1 hy; exact (h3 e he).1) (by
    intro hn hl
    refine hne hn (C57_canonical hd (C57_empty (Boc.emptyContext H)) fun y hy => ?_)
    cases hh : (if has y then some () else none : Option Unit) with
    | none => rfl
    | some u =>
      have := (h1.2 y u).2 ⟨hy, hh⟩
      rw [List.map_eq_nil_iff.1 hl] at this
      cases this)
  refine ⟨x, ?_, ?_⟩
  · unfold keys
    dsimp only
    rw [h2, keysOf_ok]
    exact g1
  · rw [g3, C57_canonical g4 hd fun y hy => ?_]
    have : (y ∈ l.map Prod.fst) ↔ has y = true := by
      constructor
      · intro hm
        obtain ⟨e, he, rfl⟩ := List.mem_map.1 hm
        have := ((h1.2 e.1 e.2).1 he).2
        dsimp only at this
        by_cases g : has e.1 = true
        · exact g
        · rw [if_neg g] at this; cases this
      · intro g
        exact List.mem_map.2 ⟨(y, ()), (h1.2 y ()).2 ⟨hy, by dsimp only; rw [if_pos g]⟩, rfl⟩
    by_cases g : has y = true
    · rw [if_pos g, if_pos (decide_eq_true (this.2 g))]
    · rw [if_neg g, if_neg (by rw [decide_eq_true_iff]; exact fun hm => g (this.1 hm))]

end

end
end Form
end Verif
