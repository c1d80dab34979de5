import Verif.ArbitraryLemmas

/-! Every ordinary cell is made by the generator of ordinary cells, from some input. -/

set_option linter.unusedVariables false

namespace Verif.Arb
open Verif Merkle

variable {H : Hasher}

mutual
theorem plain_mask : ∀ t : Cell, Plain t → (t.info H).mask = 0
  | .mk e b rs, h => by
    obtain ⟨he, hr⟩ := h
    subst he
    show (nodeInfo H false b (Cell.infoList H rs)).mask = 0
    unfold nodeInfo typeOf
    rw [if_neg (by decide)]
    exact plain_masks rs hr
theorem plain_masks : ∀ ts : List Cell, PlainList ts → orMasks ((Cell.infoList H ts).map (·.mask)) = 0
  | [], _ => rfl
  | t :: ts, h => by
    show (t.info H).mask ||| orMasks ((Cell.infoList H ts).map (·.mask)) = 0
    rw [plain_mask t h.1, plain_masks ts h.2]; rfl
end

/-- Bytes for the given bits. -/
def pack (b : Bits) : List Byte := bytesOfBits (b ++ List.replicate ((b.length + 7) / 8 * 8 - b.length) false)

theorem pack_length (b : Bits) : (pack b).length = (b.length + 7) / 8 := by
  unfold pack
  rw [bytesOfBits_length, List.length_append, List.length_replicate]; omega

theorem pack_raw (b : Bits) : rawBits (pack b) b.length = b := by
  unfold rawBits
  rw [if_pos (by rw [pack_length]; omega)]
  unfold pack
  rw [bytesToBits_bytesOfBits _ (by rw [List.length_append, List.length_replicate]; omega), List.take_left' rfl]

theorem bytes_run (d : List Byte) (rest : Src) : bytes d.length (d.map (·.toNat) ++ rest) = .ok (d, rest) := by
  unfold bytes
  have hl : (d.map (·.toNat)).length = d.length := List.length_map ..
  rw [if_pos (by rw [List.length_append, hl]; omega), List.take_left' hl, List.drop_left' hl, List.map_map]
  congr 2
  conv => rhs; rw [← List.map_id d]
  apply List.map_congr_left
  intro x _
  simp

/-- What is known about a whole list of trees. -/
def PlainOk (H : Hasher) (t : Cell) : Prop := Plain t ∧ t.WF H

theorem run_bind {α β : Type} {g : Gen α} {f : α → Gen β} {s s' : Src} {a : α} (h : g s = .ok (a, s')) : (g >>= f) s = f a s' := by
  show Gen.bind g f s = _
  unfold Gen.bind
  rw [h]

theorem store_ok {w : Wr CCell Unit} {e : Enc CCell} (hw : Writes w e) {b : CellB CCell} (hb : b.WF)
    (hf : (b.contents ++ e : Enc CCell).Fits) (s : Src) :
    ∃ b', store w b s = .ok (b', s) ∧ b'.WF ∧ b'.contents = b.contents ++ e ∧ b'.exotic = b.exotic := by
  obtain ⟨b', e1, w1, c1, x1⟩ := (hw b hb).1 hf
  refine ⟨b', ?_, w1, c1, x1⟩
  unfold Arb.store
  rw [e1]
  rfl

/-- The generator makes this tree from this input. -/
def Makes (H : Hasher) (t : Cell) (s : Src) : Prop :=
  ∀ f, s.length < f → ∀ rest, ∃ c, ordCell H f (s ++ rest) = .ok (c, rest) ∧ Built H c ∧ c.tree = t

/-- The loop makes these children from this input. -/
def MakesList (H : Hasher) (ts : List Cell) (first : Bool) (s : Src) : Prop :=
  ∀ f, s.length < f → ∀ rest (cs : List CCell) (b : CellB CCell), (cs = [] ↔ first = true) → b.WF → b.refs = cs → cs.length + ts.length ≤ 4 →
    (∀ r ∈ cs, Built H r) → ∃ b', addChildren (ordCell H f) ts.length cs b (s ++ rest) = .ok (b', rest) ∧ b'.WF ∧ b'.exotic = b.exotic ∧
      b'.inner.bits = b.inner.bits ∧ b'.refs.map CCell.tree = cs.map CCell.tree ++ ts ∧ ∀ r ∈ b'.refs, Built H r

theorem checked_plain {c : CCell} (hc : Built H c) (hp : Plain c.tree) (hd : (c.tree.info H).depth 0 < 65535) (s : Src) : checked c s = .ok (c, s) := by
  have hm : c.desc.levelMask = 0 := by rw [hc.facts.agrees.mask]; exact plain_mask _ hp
  have : hasMaxDepth c = false := by
    unfold hasMaxDepth
    rw [hm]
    show ([0] : List Nat).any _ = false
    rw [← hc.facts.agrees.depth] at hd
    have : c.depth 0 ≠ 65535 := by omega
    simp [this]
  unfold checked
  rw [this]
  rfl

/-- One child. -/
theorem child_run {t : Cell} (hp : Plain t) (hd : (t.info H).depth 0 < 65535) {s : Src} (hs : Makes H t s) {f : Nat} (hf : s.length < f)
    (rest : Src) (cs : List CCell) : ∃ c, child (ordCell H f) cs ((if cs = [] then s else 0 :: s) ++ rest) = .ok (c, rest) ∧ Built H c ∧ c.tree = t := by
  obtain ⟨c, h1, h2, h3⟩ := hs f hf rest
  have hsub : (do let c ← ordCell H f; checked c : Gen CCell) (s ++ rest) = .ok (c, rest) := by
    rw [run_bind h1]
    exact checked_plain h2 (by rw [h3]; exact hp) (by rw [h3]; exact hd) rest
  refine ⟨c, ?_, h2, h3⟩
  unfold child
  cases cs with
  | nil =>
    rw [if_neg (by decide), if_pos rfl]
    exact hsub
  | cons x xs =>
    rw [if_pos (by rw [List.length_cons]; omega), if_neg (by intro e; cases e)]
    show (intIn 0 (x :: xs).length >>= _) (0 :: (s ++ rest)) = _
    have h0 : intIn 0 (x :: xs).length (0 :: (s ++ rest)) = .ok (0, s ++ rest) := by
      show Except.ok (0 + 0 % _, _) = _
      rw [Nat.zero_mod]
    rw [run_bind h0]
    exact hsub

mutual
theorem makes_cell : ∀ t : Cell, Plain t → t.WF H → ∃ s, Makes H t s
  | .mk e bits rs, hp, hw => by
    obtain ⟨he, hpl⟩ := hp
    subst he
    have hw' := hw
    unfold Cell.WF at hw
    obtain ⟨⟨ty, hty, hsh, hdep⟩, hwl⟩ := hw
    have : ty = .ordinary := by cases hty; rfl
    subst this
    have hlim : bits.length ≤ 1023 ∧ rs.length ≤ 4 := by
      unfold shape at hsh
      dsimp only at hsh
      by_cases h : bits.length ≤ 1023 ∧ ((Cell.infoList H rs).map (·.mask)).length ≤ 4
      · refine ⟨h.1, ?_⟩
        have := h.2
        rw [List.length_map, Cell.infoList_eq, List.length_map] at this
        exact this
      · rw [if_neg h] at hsh; exact absurd rfl hsh
    have hd : ∀ t ∈ rs, (t.info H).depth 0 < 65535 := by
      intro t ht
      have := hdep 0 (by decide) (Or.inl rfl) (t.info H) (by rw [Cell.infoList_eq]; exact List.mem_map.mpr ⟨t, ht, rfl⟩)
      exact this
    obtain ⟨sl, hsl⟩ := makes_list rs true hpl hwl hd
    refine ⟨bits.length :: rs.length :: ((pack bits).map (·.toNat) ++ sl), fun f hf rest => ?_⟩
    rw [List.length_cons, List.length_cons, List.length_append] at hf
    obtain ⟨f, rfl⟩ : ∃ g, f = g + 1 := ⟨f - 1, by omega⟩
    have hfit : ((CellB.new : CellB CCell).contents ++ Enc.bits (rawBits (pack bits) bits.length) : Enc CCell).Fits := by
      refine ⟨?_, ?_⟩
      · show ([] ++ rawBits (pack bits) bits.length).length ≤ 1023
        rw [List.nil_append, rawBits_length]; exact hlim.1
      · show ([] ++ []).length ≤ 4
        decide
    obtain ⟨b1, e1, w1, c1, x1⟩ := store_ok (Wr.writes_raw (by omega) (by rw [pack_length]; omega)).1 CellB.wf_new hfit (sl ++ rest)
    have hb1 : b1.inner.bits = bits := ((congrArg Prod.fst c1).trans (List.nil_append _)).trans (pack_raw bits)
    have hr1 : b1.refs = [] := congrArg Prod.snd c1
    obtain ⟨b2, e2, w2, x2, i2, r2, hb2⟩ := hsl f (by omega) rest [] b1 ⟨fun _ => rfl, fun _ => rfl⟩ w1 hr1 (by rw [List.length_nil]; omega) (fun _ h => nomatch h)
    have hrun : ordBuilder H (f + 1) ((bits.length :: rs.length :: ((pack bits).map (·.toNat) ++ sl)) ++ rest) = .ok (b2, rest) := by
      show ordinaryFrom (ordCell H f) (0 + bits.length % 1024) (rs.length :: (((pack bits).map (·.toNat) ++ sl) ++ rest)) = _
      have h1 : 0 + bits.length % 1024 = bits.length := by omega
      rw [h1]
      unfold ordinaryFrom
      have h2 : intIn 0 4 (rs.length :: (((pack bits).map (·.toNat) ++ sl) ++ rest)) = .ok (rs.length, (pack bits).map (·.toNat) ++ (sl ++ rest)) := by
        rw [List.append_assoc]
        show Except.ok (0 + rs.length % 5, _) = _
        have : 0 + rs.length % 5 = rs.length := by omega
        rw [this]
      rw [run_bind h2]
      have h3 := bytes_run (pack bits) (sl ++ rest)
      rw [pack_length] at h3
      rw [run_bind h3, run_bind e1]
      exact e2
    have hgood : (Cell.mk b2.exotic b2.inner.bits (b2.refs.map CCell.tree)) = .mk false bits rs := by
      have hx : b2.exotic = false := x2.trans x1
      rw [hx, i2, hb1, r2]; rfl
    obtain ⟨c, g1, g2, g3, _⟩ := (C10_build H w2 hb2).1 (by rw [hgood]; exact hw')
    refine ⟨c, ?_, g2, g3.trans hgood⟩
    show (ordBuilder H (f + 1) >>= finish H) _ = _
    rw [run_bind hrun]
    unfold finish
    rw [g1]
    rfl
theorem makes_list : ∀ (ts : List Cell) (first : Bool), PlainList ts → Cell.WFList H ts → (∀ t ∈ ts, (t.info H).depth 0 < 65535) → ∃ s, MakesList H ts first s
  | [], first, _, _, _ => by
    refine ⟨[], fun f hf rest cs b _ hb hr _ hc => ⟨b, rfl, hb, rfl, rfl, ?_, by rw [hr]; exact hc⟩⟩
    rw [hr, List.append_nil]
  | t :: ts, first, hp, hw, hd => by
    obtain ⟨s1, h1⟩ := makes_cell t hp.1 hw.1
    obtain ⟨s2, h2⟩ := makes_list ts false hp.2 hw.2 (fun t ht => hd t (List.mem_cons_of_mem _ ht))
    refine ⟨(if first then s1 else 0 :: s1) ++ s2, fun f hf rest cs b hfirst hb hr hlen hc => ?_⟩
    rw [List.length_append] at hf
    rw [List.length_cons] at hlen
    have hl1 : s1.length ≤ (if first then s1 else 0 :: s1).length := by
      cases first
      · show s1.length ≤ (0 :: s1).length
        rw [List.length_cons]; omega
      · exact Nat.le_refl _
    obtain ⟨c, e1, hbc, htc⟩ := child_run hp.1 (hd t (List.mem_cons_self ..)) h1 (f := f) (by omega) (s2 ++ rest) cs
    have hpre : (if cs = [] then s1 else 0 :: s1) = (if first then s1 else 0 :: s1) := by
      by_cases h : cs = []
      · rw [if_pos h, if_pos (hfirst.mp h)]
      · rw [if_neg h, if_neg (fun e => h (hfirst.mpr e))]
    rw [hpre] at e1
    have hfit : (b.contents ++ Enc.ref c : Enc CCell).Fits := by
      refine ⟨?_, ?_⟩
      · show (b.inner.bits ++ []).length ≤ 1023
        rw [List.append_nil, DataBuilder.bits_length]
        exact hb.inner.le
      · show (b.refs ++ [c]).length ≤ 4
        rw [hr, List.length_append, List.length_singleton]; omega
    obtain ⟨b1, e2, w1, c1, x1⟩ := store_ok (Wr.writes_ref c).1 hb hfit (s2 ++ rest)
    have hb1 : b1.inner.bits = b.inner.bits := (congrArg Prod.fst c1).trans (List.append_nil _)
    have hr1 : b1.refs = cs ++ [c] := by rw [← hr]; exact congrArg Prod.snd c1
    obtain ⟨b2, e3, w2, x2, i2, r2, hb2⟩ := h2 f (by omega) rest (cs ++ [c]) b1
      ⟨fun e => absurd e (by simp), fun e => nomatch e⟩ w1 hr1 (by rw [List.length_append, List.length_singleton]; omega) (by
        intro r hr
        rcases List.mem_append.mp hr with h | h
        · exact hc r h
        · rw [List.mem_singleton.mp h]; exact hbc)
    refine ⟨b2, ?_, w2, x2.trans x1, i2.trans hb1, ?_, hb2⟩
    · show (child (ordCell H f) cs >>= fun c => store (Wr.ref c) b >>= fun b => addChildren (ordCell H f) ts.length (cs ++ [c]) b) _ = _
      rw [List.append_assoc, run_bind e1, run_bind e2]
      exact e3
    · rw [r2, List.map_append, List.append_assoc, List.map_singleton, htc]; rfl
end

end Verif.Arb
