import Verif.BocDeLemmas
import Verif.BocSerLemmas
/-
C16: decoding of arbitrary bytes.
-/
set_option linter.unusedVariables false
set_option linter.unusedSimpArgs false
namespace Verif
namespace Boc

/-! ### No faults -/

theorem next_safe {n : Nat} {rest : List Byte} (h : n ≤ rest.length) : Safe (next n rest) := by rw [next_ok h]; exact Safe.ok _

theorem nextNat_safe {n : Nat} {rest : List Byte} (h : n ≤ rest.length) : Safe (nextNat n rest) := by rw [nextNat_ok h]; exact Safe.ok _

theorem readFlags_safe (data : List Byte) : Safe (readFlags data) := by
  unfold readFlags
  refine Safe.bind (Safe.ensure (by decide) (by decide)) fun _ h => ?_
  have h6 : 6 ≤ data.length := by simpa using ensure_inv h
  refine Safe.bind (next_safe (by omega)) fun ⟨tag, r1⟩ h1 => ?_
  obtain ⟨_, _, e1⟩ := next_inv h1
  refine Safe.bind (nextNat_safe (by rw [e1]; simp; omega)) fun ⟨fl, r2⟩ h2 => ?_
  obtain ⟨_, _, e2⟩ := nextNat_inv h2
  refine Safe.bind (nextNat_safe (by rw [e2, e1]; simp; omega)) fun ⟨os, r3⟩ h3 => ?_
  dsimp only
  cases Tag.fromBytes tag with
  | none => exact Safe.err (by decide) (by decide)
  | some t =>
    dsimp only
    refine Safe.bind (Safe.ensure (by decide) (by decide)) fun _ _ => ?_
    refine Safe.bind (Safe.ensure (by decide) (by decide)) fun _ _ => ?_
    refine Safe.bind (Safe.ensure (by decide) (by decide)) fun _ _ => ?_
    exact Safe.ok _

theorem readCounts_safe (f : Flags) (os : Nat) (opts : Options) (rest : List Byte) : Safe (readCounts f os opts rest) := by
  unfold readCounts
  refine Safe.bind (Safe.ensure (by decide) (by decide)) fun _ h => ?_
  have hlen : f.refSize * 3 + os ≤ rest.length := by simpa using ensure_inv h
  refine Safe.bind (nextNat_safe (by omega)) fun ⟨a, r1⟩ h1 => ?_
  obtain ⟨_, _, e1⟩ := nextNat_inv h1
  refine Safe.bind (nextNat_safe (by rw [e1]; simp; omega)) fun ⟨b, r2⟩ h2 => ?_
  obtain ⟨_, _, e2⟩ := nextNat_inv h2
  refine Safe.bind (nextNat_safe (by rw [e2, e1]; simp; omega)) fun ⟨c, r3⟩ h3 => ?_
  obtain ⟨_, _, e3⟩ := nextNat_inv h3
  dsimp only
  refine Safe.bind (Safe.ensure (by decide) (by decide)) fun _ _ => ?_
  refine Safe.bind (Safe.ensure (by decide) (by decide)) fun _ _ => ?_
  refine Safe.bind (Safe.ensure (by decide) (by decide)) fun _ g => ?_
  have hle : b + c ≤ a := by simpa using ensure_inv g
  refine Safe.bind (Safe.ensure (by decide) (by decide)) fun _ _ => ?_
  refine Safe.bind (Safe.ensure (by decide) (by decide)) fun _ _ => ?_
  refine Safe.bind (Safe.ensure (by decide) (by decide)) fun _ _ => ?_
  refine Safe.bind (nextNat_safe (by rw [e3, e2, e1]; simp; omega)) fun ⟨t, r4⟩ h4 => ?_
  have hsub : b * f.refSize ≤ a * (2 + f.refSize) := by
    have := Nat.mul_le_mul_right f.refSize (show b ≤ a by omega)
    rw [Nat.mul_add]; omega
  rw [ensure_ok (by simpa using hsub)]
  dsimp only [bok]
  refine Safe.bind (Safe.ensure (by decide) (by decide)) fun _ _ => ?_
  refine Safe.bind (Safe.ensure (by decide) (by decide)) fun _ _ => ?_
  exact Safe.ok _

theorem readRoots_safe (refSize cells : Nat) : ∀ (k : Nat) (rest : List Byte), k * refSize ≤ rest.length → Safe (readRoots refSize cells k rest)
  | 0, rest, _ => Safe.ok _
  | k + 1, rest, h => by
    rw [readRoots]
    rw [Nat.succ_mul] at h
    refine Safe.bind (nextNat_safe (by omega)) fun ⟨i, r⟩ h1 => ?_
    obtain ⟨_, _, e⟩ := nextNat_inv h1
    refine Safe.bind (Safe.ensure (by decide) (by decide)) fun _ _ => ?_
    refine Safe.bind (readRoots_safe refSize cells k r (by rw [e]; simp; omega)) fun ⟨is, r'⟩ _ => ?_
    exact Safe.ok _

theorem rawLen_safe (bytes : List Byte) (refSize : Nat) : Safe (rawLen bytes refSize) := by
  unfold rawLen
  refine Safe.bind (Safe.ensure (by decide) (by decide)) fun _ h => ?_
  have hlen : 2 ≤ bytes.length := by simpa using ensure_inv h
  refine Safe.bind (nextNat_safe (by omega)) fun ⟨a, r1⟩ h1 => ?_
  obtain ⟨_, _, e1⟩ := nextNat_inv h1
  refine Safe.bind (nextNat_safe (by rw [e1]; simp; omega)) fun ⟨b, r2⟩ h2 => ?_
  dsimp only
  refine Safe.bind (Safe.ensure (by decide) (by decide)) fun _ _ => ?_
  refine Safe.bind (Safe.ensure (by decide) (by decide)) fun _ _ => ?_
  refine Safe.bind (Safe.ensure (by decide) (by decide)) fun _ _ => ?_
  refine Safe.bind (Safe.ensure (by decide) (by decide)) fun _ g => ?_
  have hle := ensure_inv g
  rw [decide_eq_true_eq] at hle
  split
  · rename_i hb
    refine Safe.bind (nextNat_safe (by rw [List.length_drop]; omega)) fun ⟨x, r⟩ _ => ?_
    refine Safe.bind (Safe.ensure (by decide) (by decide)) fun _ _ => ?_
    exact Safe.ok _
  · exact Safe.ok _

theorem readCells_safe (refSize : Nat) : ∀ (k : Nat) (rest : List Byte), Safe (readCells refSize k rest)
  | 0, rest => Safe.ok _
  | k + 1, rest => by
    rw [readCells]
    refine Safe.bind (rawLen_safe _ _) fun n h => ?_
    refine Safe.bind (next_safe (rawLen_shape h).1) fun ⟨c, r⟩ _ => ?_
    refine Safe.bind (readCells_safe refSize k r) fun ⟨cs, r'⟩ _ => ?_
    exact Safe.ok _

theorem checkEnd_safe (f : Flags) (total : Nat) (data start rest : List Byte) : Safe (checkEnd f total data start rest) := by
  unfold checkEnd
  refine Safe.bind (Safe.ensure (by decide) (by decide)) fun _ _ => ?_
  split
  · refine Safe.bind (Safe.ensure (by decide) (by decide)) fun _ h => ?_
    have h4 : 4 ≤ rest.length := by simpa using ensure_inv h
    refine Safe.bind (next_safe h4) fun ⟨c, r⟩ _ => ?_
    refine Safe.bind (Safe.ensure (by decide) (by decide)) fun _ _ => ?_
    exact Safe.ok _
  · exact Safe.ok _

theorem decodeRest_safe (data : List Byte) (opts : Options) : Safe (decodeRest data opts) := by
  unfold decodeRest
  refine Safe.bind (readFlags_safe data) fun ⟨f, os, r1⟩ _ => ?_
  refine Safe.bind (readCounts_safe f os opts r1) fun ⟨cells, roots, total, r2⟩ _ => ?_
  dsimp only
  refine Safe.bind (Safe.ensure (by decide) (by decide)) fun _ h => ?_
  have hr : roots * f.refSize ≤ r2.length := by simpa using ensure_inv h
  refine Safe.bind ?_ fun ⟨rs, r3⟩ _ => ?_
  · unfold rootsOf
    split
    · exact readRoots_safe _ _ _ _ hr
    · exact Safe.ok _
  refine Safe.bind (Safe.ensure (by decide) (by decide)) fun _ h => ?_
  have hi := ensure_inv h
  rw [decide_eq_true_eq] at hi
  refine Safe.bind (next_safe (by omega)) fun ⟨_, start⟩ _ => ?_
  refine Safe.bind (readCells_safe _ _ _) fun ⟨cs, r4⟩ _ => ?_
  refine Safe.bind (checkEnd_safe _ _ _ _ _) fun _ _ => ?_
  exact Safe.ok _

/-! ### What a decoded header says -/

theorem readRoots_inv (refSize cells : Nat) : ∀ (k : Nat) (rest : List Byte) {rs : List Nat} {r : List Byte},
    readRoots refSize cells k rest = .ok (rs, r) → rs.length = k ∧ ∀ i ∈ rs, i < cells
  | 0, rest, rs, r, h => by
    injection h with h; injection h with h _; subst h
    exact ⟨rfl, by simp⟩
  | k + 1, rest, rs, r, h => by
    rw [readRoots] at h
    obtain ⟨⟨i, r1⟩, h1, h⟩ := bind_inv h
    obtain ⟨_, h2, h⟩ := bind_inv h
    obtain ⟨⟨is, r2⟩, h3, h⟩ := bind_inv h
    injection h with h; injection h with h _; subst h
    obtain ⟨a, b⟩ := readRoots_inv refSize cells k _ h3
    refine ⟨by simp [a], ?_⟩
    intro x hx
    rcases List.mem_cons.mp hx with rfl | hx
    · simpa using ensure_inv h2
    · exact b x hx

theorem readCells_inv (refSize : Nat) : ∀ (k : Nat) (rest : List Byte) {cs : List (List Byte)} {r : List Byte},
    readCells refSize k rest = .ok (cs, r) → cs.length = k ∧ ∀ c ∈ cs, ∃ d hs data refs, RawShape refSize c d hs data refs
  | 0, rest, cs, r, h => by
    injection h with h; injection h with h _; subst h
    exact ⟨rfl, by simp⟩
  | k + 1, rest, cs, r, h => by
    rw [readCells] at h
    obtain ⟨n, h1, h⟩ := bind_inv h
    obtain ⟨⟨c, r1⟩, h2, h⟩ := bind_inv h
    obtain ⟨⟨cs', r2⟩, h3, h⟩ := bind_inv h
    injection h with h; injection h with h _; subst h
    obtain ⟨a, b⟩ := readCells_inv refSize k _ h3
    obtain ⟨_, hs⟩ := rawLen_shape h1
    obtain ⟨_, e, _⟩ := next_inv h2
    refine ⟨by simp [a], ?_⟩
    intro x hx
    rcases List.mem_cons.mp hx with rfl | hx
    · rw [e]; exact hs
    · exact b x hx

/-- The facts about a decoded header. -/
structure Header.Ok (opts : Options) (h : Header) : Prop where
  refSize : 1 ≤ h.refSize ∧ h.refSize ≤ 4
  raw : ∀ c ∈ h.cells, ∃ d hs data refs, RawShape h.refSize c d hs data refs
  root_lt : ∀ r ∈ h.roots, r < h.cells.length
  root_pos : h.roots ≠ []
  min : opts.minRoots.getD 0 ≤ h.roots.length
  max : h.roots.length ≤ opts.maxRoots.getD 32

theorem decodeRest_ok {data : List Byte} {opts : Options} {h : Header} {rest : List Byte} (he : decodeRest data opts = .ok (h, rest)) : h.Ok opts := by
  unfold decodeRest at he
  obtain ⟨⟨f, os, r1⟩, h1, he⟩ := bind_inv he
  obtain ⟨⟨cells, roots, total, r2⟩, h2, he⟩ := bind_inv he
  dsimp only at he
  obtain ⟨_, h3, he⟩ := bind_inv he
  obtain ⟨⟨rs, r3⟩, h4, he⟩ := bind_inv he
  dsimp only at he
  obtain ⟨_, h5, he⟩ := bind_inv he
  obtain ⟨⟨_, start⟩, h6, he⟩ := bind_inv he
  obtain ⟨⟨cs, r4⟩, h7, he⟩ := bind_inv he
  obtain ⟨r5, h8, he⟩ := bind_inv he
  injection he with he; injection he with he _; subst he
  obtain ⟨c1, c2⟩ := readCells_inv _ _ _ h7
  have hflags : (1 ≤ f.refSize ∧ f.refSize ≤ 4) := by
    unfold readFlags at h1
    obtain ⟨_, _, h1⟩ := bind_inv h1
    obtain ⟨⟨_, _⟩, _, h1⟩ := bind_inv h1
    obtain ⟨⟨_, _⟩, _, h1⟩ := bind_inv h1
    obtain ⟨⟨_, _⟩, _, h1⟩ := bind_inv h1
    dsimp only at h1
    split at h1
    · cases h1
    · obtain ⟨_, _, h1⟩ := bind_inv h1
      obtain ⟨_, g, h1⟩ := bind_inv h1
      obtain ⟨_, _, h1⟩ := bind_inv h1
      injection h1 with h1; injection h1 with h1 _
      rw [← h1]
      simpa using ensure_inv g
  have hcounts : roots ≠ 0 ∧ (f.multi = true ∨ roots ≤ 1) ∧ roots ≤ cells ∧ opts.minRoots.getD 0 ≤ roots ∧ roots ≤ opts.maxRoots.getD 32 := by
    unfold readCounts at h2
    obtain ⟨_, _, h2⟩ := bind_inv h2
    obtain ⟨⟨c, _⟩, _, h2⟩ := bind_inv h2
    obtain ⟨⟨r, _⟩, _, h2⟩ := bind_inv h2
    obtain ⟨⟨a, _⟩, _, h2⟩ := bind_inv h2
    dsimp only at h2
    obtain ⟨_, g1, h2⟩ := bind_inv h2
    obtain ⟨_, g2, h2⟩ := bind_inv h2
    obtain ⟨_, g3, h2⟩ := bind_inv h2
    obtain ⟨_, g4, h2⟩ := bind_inv h2
    obtain ⟨_, g5, h2⟩ := bind_inv h2
    obtain ⟨_, g6, h2⟩ := bind_inv h2
    obtain ⟨⟨t, _⟩, _, h2⟩ := bind_inv h2
    obtain ⟨_, _, h2⟩ := bind_inv h2
    obtain ⟨_, _, h2⟩ := bind_inv h2
    obtain ⟨_, _, h2⟩ := bind_inv h2
    injection h2 with h2
    injection h2 with e1 h2
    injection h2 with e2 h2
    subst e1; subst e2
    have k1 := ensure_inv g1
    have k2 := ensure_inv g2
    have k3 := ensure_inv g3
    have k5 := ensure_inv g5
    have k6 := ensure_inv g6
    simp only [decide_eq_true_eq, Bool.or_eq_true] at k1 k2 k3 k5 k6
    exact ⟨k1, k2, by omega, k5, k6⟩
  obtain ⟨n1, n2, n3, n4, n5⟩ := hcounts
  have hrs : rs.length = roots ∧ ∀ i ∈ rs, i < cells := by
    unfold rootsOf at h4
    cases hm : f.multi with
    | true =>
      rw [hm, if_pos rfl] at h4
      exact readRoots_inv _ _ _ _ h4
    | false =>
      rw [hm] at h4
      injection h4 with h4; injection h4 with h4 _; subst h4
      rcases n2 with n2 | n2
      · rw [hm] at n2; cases n2
      · exact ⟨by simp; omega, by simp; omega⟩
  refine ⟨hflags, c2, ?_, ?_, ?_, ?_⟩
  · intro r hr
    rw [c1]; exact hrs.2 r hr
  · intro e
    have := hrs.1
    simp only at e
    rw [e] at this; simp at this; omega
  · show _ ≤ rs.length
    rw [hrs.1]; exact n4
  · show rs.length ≤ _
    rw [hrs.1]; exact n5

/-! ### Cells -/

theorem readRefs_safe (cells : List CCell) (count refSize : Nat) : ∀ (k : Nat) (bytes : List Byte), k * refSize ≤ bytes.length →
    Safe (readRefs cells count refSize k bytes)
  | 0, _, _ => Safe.ok _
  | k + 1, bytes, h => by
    rw [readRefs]
    rw [Nat.succ_mul] at h
    refine Safe.bind (nextNat_safe (by omega)) fun ⟨i, r⟩ h1 => ?_
    obtain ⟨_, _, e⟩ := nextNat_inv h1
    refine Safe.bind (Safe.ensure (e := .invalidRef) (by decide) (by decide)) fun _ h2 => ?_
    have h2 := of_decide_eq_true (ensure_inv h2)
    rw [ensure_ok (decide_eq_true (show i + 1 ≤ count from h2))]
    simp only [bok]
    split
    · exact Safe.err (by decide) (by decide)
    · refine Safe.bind (readRefs_safe cells count refSize k r (by rw [e]; simp; omega)) fun _ _ => ?_
      exact Safe.ok _

theorem readRefs_inv (cells : List CCell) (count refSize : Nat) : ∀ (k : Nat) (bytes : List Byte) {rs : List CCell},
    readRefs cells count refSize k bytes = .ok rs → rs.length = k ∧ ∀ r ∈ rs, r ∈ cells
  | 0, _, rs, h => by
    injection h with h; subst h
    exact ⟨rfl, by simp⟩
  | k + 1, bytes, rs, h => by
    rw [readRefs] at h
    obtain ⟨⟨i, r1⟩, h1, h⟩ := bind_inv h
    obtain ⟨_, h2, h⟩ := bind_inv h
    have h2 := of_decide_eq_true (ensure_inv h2)
    rw [ensure_ok (decide_eq_true (show i + 1 ≤ count from h2))] at h
    simp only [bok] at h
    split at h
    · cases h
    · rename_i c hc
      obtain ⟨cs, h3, h⟩ := bind_inv h
      injection h with h; subst h
      obtain ⟨a, b⟩ := readRefs_inv cells count refSize k _ h3
      refine ⟨by simp [a], ?_⟩
      intro x hx
      rcases List.mem_cons.mp hx with rfl | hx
      · exact List.mem_of_getElem? hc
      · exact b x hx

theorem partsOf_shape {refSize : Nat} {c : List Byte} {d : CellDescriptor} {hs data refs : List Byte} (h : RawShape refSize c d hs data refs)
    (cells : List CCell) (count : Nat) : partsOf c cells count refSize =
      (readRefs cells count refSize d.referenceCount refs >>= fun r => .ok ⟨decodeBitLen d data, d, orChildren r, r, data⟩) := by
  unfold partsOf
  rw [h.eq, nextNat_one]
  simp only [bok, nextNat_one, BitVec.ofNat_toNat, BitVec.setWidth_eq]
  rw [show (if d.storeHashes = true then (32 + 2) * (d.levelMask.level + 1) else 0) = hashLen d from rfl, ← h.hashes, next_append]
  simp only [bok]
  rw [← h.len, next_append]
  rfl

/-- A cell never has stored hashes and the shape of a pruned branch: neither the builder nor the reader makes such cells. -/
def Normal (c : CCell) : Prop :=
  (c.desc.storeHashes && (c.desc.isExotic && c.desc.referenceCount == 0 && decide (0 < c.desc.levelMask.level))) = false ∧ c.desc.isAbsent = false

theorem makeCell_spec {H : Hasher} {raw : List Byte} {cells : List CCell} {count refSize : Nat}
    (hraw : ∃ d hs data refs, RawShape refSize raw d hs data refs) (hcells : ∀ c ∈ cells, Built H c) :
    Safe (makeCell H raw cells count refSize) ∧
    ∀ c, makeCell H raw cells count refSize = .ok c → Built H c ∧ Normal c ∧ ∀ r ∈ c.refs, r ∈ cells := by
  obtain ⟨d, hs, data, refs, h⟩ := hraw
  unfold makeCell
  rw [partsOf_shape h]
  have hsafe := readRefs_safe cells count refSize d.referenceCount refs (Nat.le_of_eq h.refs.symm)
  constructor
  · refine Safe.bind (Safe.bind hsafe fun _ _ => Safe.ok _) fun p _ => ?_
    split
    · exact Safe.ok _
    · exact Safe.err (by decide) (by decide)
  · intro c hc
    obtain ⟨p, hp, hc⟩ := bind_inv hc
    obtain ⟨rs, hr, hp⟩ := bind_inv hp
    injection hp with hp
    obtain ⟨l1, l2⟩ := readRefs_inv _ _ _ _ _ hr
    obtain ⟨b1, b2, b3, b4⟩ := decodeBitLen_ok h.len h.tag
    cases hf : p.finalize H with
    | error e => rw [hf] at hc; cases hc
    | ok c' =>
      rw [hf] at hc
      injection hc with hc
      subst hc
      obtain ⟨hs', e⟩ := finalize_fields hf
      subst hp
      have hok : (CellParts.mk (decodeBitLen d data) d (orChildren rs) rs data).Ok :=
        ⟨l1.symm, by show rs.length ≤ 4; rw [l1]; exact h.refs_le, rfl, b1, b2, b3, b4⟩
      refine ⟨.mk hok (fun r hr => hcells r (l2 r hr)) hf, ?_, ?_⟩
      · rw [e]; exact ⟨h.normal, h.absent⟩
      · rw [e]; exact l2

theorem finalizeGo_spec {H : Hasher} {count refSize : Nat} : ∀ (raws : List (List Byte)) (cells : List CCell),
    (∀ raw ∈ raws, ∃ d hs data refs, RawShape refSize raw d hs data refs) → (∀ c ∈ cells, Built H c) →
    Safe (finalizeGo H count refSize raws cells) ∧
    ∀ cs, finalizeGo H count refSize raws cells = .ok cs → ∃ new, cs = cells ++ new ∧ new.length = raws.length ∧
      ∀ (i : Nat) (c : CCell), new[i]? = some c → Built H c ∧ Normal c ∧ ∀ r ∈ c.refs, r ∈ cells ++ new.take i
  | [], cells, _, _ => by
    refine ⟨Safe.ok _, fun cs h => ?_⟩
    injection h with h
    exact ⟨[], by simp [h], rfl, by simp⟩
  | raw :: raws, cells, hraw, hcells => by
    obtain ⟨m1, m2⟩ := makeCell_spec (count := count) (hraw raw List.mem_cons_self) hcells
    have hrest := fun r h => hraw r (List.mem_cons_of_mem raw h)
    have hnext : ∀ c, makeCell H raw cells count refSize = .ok c → ∀ x ∈ cells ++ [c], Built H x := by
      intro c hc x hx
      rcases List.mem_append.mp hx with h | h
      · exact hcells x h
      · rw [List.mem_singleton.mp h]; exact (m2 c hc).1
    constructor
    · rw [finalizeGo]
      refine Safe.bind m1 fun c hc => ?_
      exact (finalizeGo_spec raws (cells ++ [c]) hrest (hnext c hc)).1
    · intro cs h
      rw [finalizeGo] at h
      obtain ⟨c, hc, h⟩ := bind_inv h
      obtain ⟨new, e1, e2, e3⟩ := (finalizeGo_spec raws (cells ++ [c]) hrest (hnext c hc)).2 cs h
      refine ⟨c :: new, by rw [e1]; simp, by simp [e2], ?_⟩
      intro i x hx
      cases i with
      | zero =>
        simp only [List.getElem?_cons_zero] at hx
        injection hx with hx; subst hx
        obtain ⟨a, b, d⟩ := m2 c hc
        exact ⟨a, b, by simpa using d⟩
      | succ i =>
        simp only [List.getElem?_cons_succ] at hx
        obtain ⟨a, b, d⟩ := e3 i x hx
        refine ⟨a, b, fun r hr => ?_⟩
        have := d r hr
        simpa using this

theorem finalize_safe {H : Hasher} {opts : Options} {h : Header} (hh : h.Ok opts) : Safe (h.finalize H) :=
  (finalizeGo_spec h.cells.reverse [] (fun r hr => hh.raw r (List.mem_reverse.mp hr)) (by simp)).1

theorem finalize_cells {H : Hasher} {opts : Options} {h : Header} (hh : h.Ok opts) {cells : List CCell} (hf : h.finalize H = .ok cells) :
    cells.length = h.cells.length ∧ ∀ (i : Nat) (c : CCell), cells[i]? = some c → Built H c ∧ Normal c ∧ ∀ r ∈ c.refs, ∃ j : Nat, j < i ∧ cells[j]? = some r := by
  obtain ⟨new, e1, e2, e3⟩ := (finalizeGo_spec (H := H) h.cells.reverse [] (fun r hr => hh.raw r (List.mem_reverse.mp hr)) (by simp)).2 cells hf
  simp only [List.nil_append] at e1
  subst e1
  refine ⟨by simpa using e2, fun i c hc => ?_⟩
  obtain ⟨a, b, d⟩ := e3 i c hc
  refine ⟨a, b, fun r hr => ?_⟩
  have := d r hr
  simp only [List.nil_append] at this
  obtain ⟨j, hj⟩ := List.mem_iff_getElem?.mp this
  rw [List.getElem?_take] at hj
  by_cases hlt : j < i
  · rw [if_pos hlt] at hj; exact ⟨j, hlt, hj⟩
  · rw [if_neg hlt] at hj; cases hj

theorem getCell_spec {cells : List CCell} {i : Nat} (h : i < cells.length) : ∃ c, getCell cells i = .ok (some c) ∧ cells[cells.length - i - 1]? = some c := by
  unfold getCell
  rw [if_pos (by omega)]
  exact ⟨cells[cells.length - i - 1], by rw [List.getElem?_eq_getElem (by omega)], by rw [List.getElem?_eq_getElem (by omega)]⟩

theorem decodeHeader_inv {data : List Byte} {opts : Options} {h : Header} (he : decodeHeader data opts = .ok h) : ∃ rest, decodeRest data opts = .ok (h, rest) := by
  unfold decodeHeader at he
  obtain ⟨⟨h', rest⟩, h1, he⟩ := bind_inv he
  injection he with he; subst he
  exact ⟨rest, h1⟩

theorem decodeHeader_safe (data : List Byte) (opts : Options) : Safe (decodeHeader data opts) := by
  unfold decodeHeader
  exact Safe.bind (decodeRest_safe data opts) fun ⟨h, _⟩ _ => Safe.ok _

theorem getAll_safe {cells : List CCell} : ∀ (rs : List Nat), (∀ r ∈ rs, r < cells.length) → Safe (getAll cells rs)
  | [], _ => Safe.ok _
  | r :: rs, h => by
    obtain ⟨c, hc, _⟩ := getCell_spec (h r List.mem_cons_self)
    rw [getAll, hc]
    simp only [bok]
    exact Safe.bind (getAll_safe rs fun r hr => h r (List.mem_cons_of_mem _ hr)) fun _ _ => Safe.ok _

/-- C16: whatever the bytes and the options, no read is out of bounds and no panic happens: not in the header, not when cells
are made, not when roots are fetched. -/
theorem C16_safe (H : Hasher) (opts : Options) (data : List Byte) :
    Safe (decodeHeader data opts) ∧ Safe (decodeAll H opts data) ∧ Safe (decode H data) ∧ Safe (decodePair H data) := by
  refine ⟨decodeHeader_safe data opts, ?_, ?_, ?_⟩
  · unfold decodeAll
    refine Safe.bind (decodeHeader_safe data opts) fun h hh => ?_
    obtain ⟨rest, hr⟩ := decodeHeader_inv hh
    have hok := decodeRest_ok hr
    refine Safe.bind (finalize_safe hok) fun cells hc => ?_
    exact getAll_safe _ fun r hr => by rw [(finalize_cells hok hc).1]; exact hok.root_lt r hr
  · unfold decode
    refine Safe.bind (decodeHeader_safe data _) fun h hh => ?_
    obtain ⟨rest, hr⟩ := decodeHeader_inv hh
    have hok := decodeRest_ok hr
    cases hroots : h.roots with
    | nil => exact Safe.err (by decide) (by decide)
    | cons r rs =>
      dsimp only
      refine Safe.bind (finalize_safe hok) fun cells hc => ?_
      obtain ⟨c, e, _⟩ := getCell_spec (cells := cells) (i := r) (by rw [(finalize_cells hok hc).1]; exact hok.root_lt r (by rw [hroots]; exact List.mem_cons_self))
      rw [e]
      exact Safe.ok _
  · unfold decodePair
    refine Safe.bind (decodeHeader_safe data _) fun h hh => ?_
    obtain ⟨rest, hr⟩ := decodeHeader_inv hh
    have hok := decodeRest_ok hr
    match hroots : h.roots with
    | [] => exact Safe.err (by decide) (by decide)
    | [_] => exact Safe.err (by decide) (by decide)
    | r1 :: r2 :: rs =>
      dsimp only
      refine Safe.bind (finalize_safe hok) fun cells hc => ?_
      obtain ⟨c1, e1, _⟩ := getCell_spec (cells := cells) (i := r1) (by rw [(finalize_cells hok hc).1]; exact hok.root_lt r1 (by rw [hroots]; simp))
      obtain ⟨c2, e2, _⟩ := getCell_spec (cells := cells) (i := r2) (by rw [(finalize_cells hok hc).1]; exact hok.root_lt r2 (by rw [hroots]; simp))
      rw [e1, e2]
      exact Safe.ok _

/-- C16: the cells that come out of a decoded header, in the order in which they are made. Every one of them is well formed,
and its references are cells made before it, so that there are no cycles. The roots are among the cells and their number
is within the limits. -/
theorem C16_cells (H : Hasher) (opts : Options) (data : List Byte) {h : Header} {cells : List CCell} (hd : decodeHeader data opts = .ok h)
    (hf : h.finalize H = .ok cells) :
    (∀ (i : Nat) (c : CCell), cells[i]? = some c → Built H c ∧ c.tree.WF H ∧ ∀ r ∈ c.refs, ∃ j : Nat, j < i ∧ cells[j]? = some r) ∧
    (∀ r ∈ h.roots, ∃ c, getCell cells r = .ok (some c)) ∧
    1 ≤ h.roots.length ∧ opts.minRoots.getD 0 ≤ h.roots.length ∧ h.roots.length ≤ opts.maxRoots.getD 32 := by
  obtain ⟨rest, hr⟩ := decodeHeader_inv hd
  have hok := decodeRest_ok hr
  obtain ⟨l, hc⟩ := finalize_cells hok hf
  refine ⟨fun i c hi => ⟨(hc i c hi).1, (hc i c hi).1.facts.wf, (hc i c hi).2.2⟩, ?_, ?_, hok.min, hok.max⟩
  · intro r hr
    obtain ⟨c, e, _⟩ := getCell_spec (cells := cells) (i := r) (by rw [l]; exact hok.root_lt r hr)
    exact ⟨c, e⟩
  · exact List.length_pos_iff.mpr hok.root_pos

/-- C16 for `Boc::decode`: the root is a well-formed cell. -/
theorem C16_decode (H : Hasher) (data : List Byte) {c : CCell} (hd : decode H data = .ok c) : Built H c ∧ c.tree.WF H ∧ Normal c := by
  unfold decode at hd
  obtain ⟨h, h1, hd⟩ := bind_inv hd
  obtain ⟨rest, hr⟩ := decodeHeader_inv h1
  have hok := decodeRest_ok hr
  cases hroots : h.roots with
  | nil => rw [hroots] at hd; cases hd
  | cons r rs =>
    rw [hroots] at hd
    dsimp only at hd
    obtain ⟨cells, h2, hd⟩ := bind_inv hd
    obtain ⟨l, hc⟩ := finalize_cells hok h2
    obtain ⟨c', e, g⟩ := getCell_spec (cells := cells) (i := r) (by rw [l]; exact hok.root_lt r (by rw [hroots]; exact List.mem_cons_self))
    rw [e] at hd
    injection hd with hd
    subst hd
    obtain ⟨a, b, _⟩ := hc _ _ g
    exact ⟨a, a.facts.wf, b⟩

end Boc
end Verif
