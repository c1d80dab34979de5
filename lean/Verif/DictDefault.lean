import Verif.DictProps
/-
Dictionaries whose values have no references, in a context that accepts every well-formed tree (the default one): the
cells of a dictionary are never too deep, so that only the room for a value and its label can limit an operation.
-/
set_option linter.unusedVariables false
namespace Verif

/-- A tree of ordinary cells within the cell limits, with fewer than `d` levels below the root. -/
def Tame : Nat → Cell → Prop
  | 0, _ => False
  | d + 1, .mk e b rs => e = false ∧ b.length ≤ 1023 ∧ rs.length ≤ 4 ∧ ∀ r ∈ rs, Tame d r

theorem depthOver_lt {d : Nat} : ∀ {ds : List Nat}, (∀ x ∈ ds, x < d) → depthOver ds < d + 1
  | [], _ => Nat.succ_pos d
  | x :: ds, h => by
    have h1 := h x List.mem_cons_self
    have h2 := depthOver_lt (ds := ds) fun y hy => h y (List.mem_cons_of_mem _ hy)
    show max (x + 1) (depthOver ds) < d + 1
    omega

theorem infoList_eq (H : Hasher) : ∀ rs : List Cell, Cell.infoList H rs = rs.map (Cell.info H)
  | [] => rfl
  | c :: cs => by
    show c.info H :: Cell.infoList H cs = _
    rw [infoList_eq H cs]; rfl

theorem levelDepth_lt {d : Nat} {ch : List Info} (h : ∀ i ∈ ch, ∀ l, i.depth l < d) (m : LevelMask) (off : Nat) : ∀ l, levelDepth m off ch l < d + 1
  | 0 => depthOver_lt fun x hx => by
      obtain ⟨i, hi, rfl⟩ := List.mem_map.mp hx
      exact h i hi _
  | l + 1 => by
    show (if m.getLsbD l then _ else _) < d + 1
    split
    · exact depthOver_lt fun x hx => by
        obtain ⟨i, hi, rfl⟩ := List.mem_map.mp hx
        exact h i hi _
    · exact levelDepth_lt h m off l

theorem tame_depth (H : Hasher) : ∀ {d : Nat} {c : Cell}, Tame d c → ∀ l, (c.info H).depth l < d
  | 0, _, h, _ => h.elim
  | d + 1, .mk e b rs, ⟨he, _, _, hr⟩, l => by
    subst he
    show levelDepth _ 0 (Cell.infoList H rs) l < d + 1
    refine levelDepth_lt (fun i hi => ?_) _ _ l
    rw [infoList_eq] at hi
    obtain ⟨c, hc, rfl⟩ := List.mem_map.mp hi
    exact fun l => tame_depth H (hr c hc) l

theorem wfList_iff (H : Hasher) : ∀ rs : List Cell, Cell.WFList H rs ↔ ∀ r ∈ rs, r.WF H
  | [] => ⟨fun _ r h => (by cases h), fun _ => trivial⟩
  | c :: cs => by
    show c.WF H ∧ Cell.WFList H cs ↔ _
    rw [wfList_iff H cs]
    simp

/-- Such a tree can be built. -/
theorem tame_wf (H : Hasher) : ∀ {d : Nat} {c : Cell}, d ≤ 65535 → Tame d c → c.WF H
  | 0, _, _, h => h.elim
  | d + 1, .mk e b rs, hd, ⟨he, hb, hn, hr⟩ => by
    subst he
    refine ⟨⟨.ordinary, rfl, ?_, ?_⟩, (wfList_iff H rs).mpr fun r hr' => tame_wf H (by omega) (hr r hr')⟩
    · show (if _ ∧ _ then _ else _) ≠ none
      rw [if_pos ⟨hb, by simp [infoList_eq, hn]⟩]
      exact fun h => by cases h
    · intro l _ _ i hi
      rw [infoList_eq] at hi
      obtain ⟨c, hc, rfl⟩ := List.mem_map.mp hi
      exact Nat.lt_of_lt_of_le (tame_depth H (hr c hc) _) (by omega)

/-- A context that builds every tree of ordinary cells of at most 1024 levels, as the default one does. -/
def AcceptsTame (acc : Cell → Bool) : Prop := ∀ c, Tame 1024 c → acc c = true

theorem Tame.mono : ∀ {d d' : Nat} {c : Cell}, d ≤ d' → Tame d c → Tame d' c
  | 0, _, _, _, h => h.elim
  | d + 1, 0, _, hd, _ => absurd hd (by omega)
  | d + 1, d' + 1, .mk e b rs, hd, ⟨h1, h2, h3, h4⟩ => ⟨h1, h2, h3, fun r hr => Tame.mono (by omega) (h4 r hr)⟩

/-- A value of at most `B` bits without references. -/
def BitsVal (B : Nat) (v : Sl) : Prop := v.bits.length ≤ B ∧ v.refs = []

theorem canon_tame {N B : Nat} (hB : 2 + bitsForLen N + N + B ≤ 1023) :
    ∀ {n : Nat} {t : Trie}, n ≤ N → t.Sized n → t.Canon n → (∀ k v, t.lookup k = some v → BitsVal B v) → Tame (n + 1) t.cell
  | n, .leaf l e v, hn, hs, hc, hv => by
    have hsm := hv l v (by rw [Trie.lookup_leaf, if_pos rfl])
    have h1 := labelBits_le l n (Nat.le_of_eq hs.1)
    have h2 := bitsForLen_mono hn
    have h3 := hs.1
    have hc : e = labelBits l n := hc
    refine ⟨rfl, ?_, ?_, ?_⟩
    · have := hsm.1
      rw [hc, List.length_append]
      omega
    · rw [hsm.2]; exact Nat.zero_le _
    · rw [hsm.2]; intro r hr; cases hr
  | n, .fork l e x a b, hn, hs, hc, hv => by
    have h1 := labelBits_le l n (Nat.le_of_lt hs.1)
    have h2 := bitsForLen_mono hn
    have h3 := hs.1
    have ha := canon_tame hB (by omega) hs.2.2.1 hc.2.2.1 fun k v hk => hv (l ++ false :: k) v (by rw [Trie.lookup_fork]; exact hk)
    have hb := canon_tame hB (by omega) hs.2.2.2 hc.2.2.2 fun k v hk => hv (l ++ true :: k) v (by rw [Trie.lookup_fork]; exact hk)
    refine ⟨rfl, ?_, ?_, ?_⟩
    · rw [hc.1, hc.2.1, Sl.empty, List.append_nil]
      omega
    · rw [hc.2.1]; simp [Sl.empty]
    · rw [hc.2.1]
      intro r hr
      simp only [Sl.empty, List.mem_cons, List.not_mem_nil, or_false] at hr
      rcases hr with rfl | rfl
      · exact ha.mono (by omega)
      · exact hb.mono (by omega)

/-- All canonical tries with such values fit. -/
theorem fits_bits {acc : Cell → Bool} (hacc : AcceptsTame acc) {N B : Nat} (hB : 2 + bitsForLen N + N + B ≤ 1023) :
    ∀ {n : Nat} {t : Trie}, n ≤ N → t.Sized n → t.Canon n → (∀ k v, t.lookup k = some v → BitsVal B v) → t.Fits acc
  | n, .leaf l e v, hn, hs, hc, hv => by
    have h := canon_tame hB hn hs hc hv
    exact ⟨h.2.1, h.2.2.1, hacc _ (h.mono (by omega))⟩
  | n, .fork l e x a b, hn, hs, hc, hv => by
    have h := canon_tame hB hn hs hc hv
    exact ⟨⟨h.2.1, h.2.2.1, hacc _ (h.mono (by omega))⟩,
      fits_bits hacc hB (by omega) hs.2.2.1 hc.2.2.1 fun k v hk => hv (l ++ false :: k) v (by rw [Trie.lookup_fork]; exact hk),
      fits_bits hacc hB (by omega) hs.2.2.2 hc.2.2.2 fun k v hk => hv (l ++ true :: k) v (by rw [Trie.lookup_fork]; exact hk)⟩

theorem fitsAll_bits {acc : Cell → Bool} (hacc : AcceptsTame acc) {n B : Nat} (hB : 2 + bitsForLen n + n + B ≤ 1023) : FitsAll acc n (BitsVal B) :=
  fun t h1 h2 h3 => fits_bits hacc hB (Nat.le_refl n) h1 h2 h3

end Verif
