import Verif.BocProps
import Verif.MerkleImage
import Verif.AbiTextFull
import Verif.Text
/-
Printed cells (`cell/mod.rs:1733-1787`): the text of a cell, and of a tree of cells.
-/
set_option linter.unusedVariables false
set_option linter.unusedSimpArgs false
namespace Verif
namespace CellText

open Text

/-- Padding of an empty text (`{:indent$}` of `""`). -/
def spaces (n : Nat) : List Char := List.replicate n ' '

/-- `{:>4}` of a number. -/
def right4 (n : Nat) : List Char := spaces (4 - (Nat.toDigits 10 n).length) ++ Nat.toDigits 10 n

/-- `Debug` of `CellType` (derived, `cell/mod.rs:984-999`). -/
def typeName : CellType → List Char
  | .ordinary => "Ordinary".toList
  | .prunedBranch => "PrunedBranch".toList
  | .libraryReference => "LibraryReference".toList
  | .merkleProof => "MerkleProof".toList
  | .merkleUpdate => "MerkleUpdate".toList

/-- `cell/mod.rs:1354-1358` `Debug` of `LevelMask`: `{:03b}`. -/
def maskText (m : LevelMask) : List Char := List.replicate (3 - (Nat.toDigits 2 m.toNat).length) '0' ++ Nat.toDigits 2 m.toNat

/-- `cell/mod.rs:1738-1763` `Display for DisplayCellRoot`; `alt` is the flag `#`. -/
def rootText (alt : Bool) (level : Nat) (c : CCell) : List Char :=
  let data := encodeHex hexLower c.data
  let indent := spaces (level * 2)
  if alt then indent ++ data ++ ['\n']
  else
    indent ++ typeName c.desc.cellType ++ ": ".toList ++ data ++ ['\n'] ++ indent ++ "bits: ".toList ++ right4 c.bitLen ++ ", refs: ".toList ++
      Nat.toDigits 10 c.desc.referenceCount ++ ", l: ".toList ++ maskText c.desc.levelMask ++ ", depth: ".toList ++ Nat.toDigits 10 (c.depth 3) ++
      ", hash: ".toList ++ encodeHex hexLower c.reprHash ++ ['\n']

/-- `cell/mod.rs:1776-1781`, the inner loop: the references from the last one to the first one are pushed. The top of the stack is first here. -/
def pushRefs (level : Nat) (c : CCell) (stack : List (Nat × CCell)) : List (Nat × CCell) :=
  (List.range c.desc.referenceCount).reverse.foldl (fun st i => match c.refs[i]? with | some r => (level + 1, r) :: st | none => st) stack

/-- `cell/mod.rs:1773-1782`, the loop over the stack, with a bound on the number of rounds (the loop of the code has none). -/
def treeGo (alt : Bool) : Nat → List (Nat × CCell) → List Char → Option (List Char)
  | _, [], out => some out
  | 0, _ :: _, _ => none
  | n + 1, (level, c) :: stack, out => treeGo alt n (pushRefs level c stack) (out ++ rootText alt level c)

/-- `cell/mod.rs:1769-1786` `Display for DisplayCellTree`. -/
def displayTree (alt : Bool) (c : CCell) : Option (List Char) := treeGo alt c.steps [(0, c)] []

/-! ### Specification -/

mutual
/-- A cell and then its references in order, each two columns to the right. -/
def shown (alt : Bool) (level : Nat) : CCell → List Char
  | .mk d n bs rs hs => rootText alt level (.mk d n bs rs hs) ++ shownList alt (level + 1) rs
def shownList (alt : Bool) (level : Nat) : List CCell → List Char
  | [] => []
  | c :: cs => shown alt level c ++ shownList alt level cs
end

mutual
/-- The tree of the byte strings that cells hold: with the completion tag, without bit lengths and types. -/
def bytesTree : CCell → Cell
  | .mk _ _ bs rs _ => .mk false (bytesToBits bs) (bytesTrees rs)
def bytesTrees : List CCell → List Cell
  | [] => []
  | c :: cs => bytesTree c :: bytesTrees cs
end

/-! ### The loop -/

theorem pushRefs_eq {level : Nat} {c : CCell} (h : c.desc.referenceCount = c.refs.length) (stack : List (Nat × CCell)) :
    pushRefs level c stack = c.refs.map (fun r => (level + 1, r)) ++ stack := by
  unfold pushRefs
  rw [h, List.foldl_reverse]
  have key : ∀ (l : List CCell) (k : Nat), (∀ i : Nat, i < l.length → c.refs[k + i]? = l[i]?) →
      (List.range' k l.length).foldr (fun i st => match c.refs[i]? with | some r => (level + 1, r) :: st | none => st) stack = l.map (fun r => (level + 1, r)) ++ stack := by
    intro l
    induction l with
    | nil => intro k _; rfl
    | cons x l ih =>
      intro k hk
      rw [List.length_cons, List.range'_succ, List.foldr_cons]
      have h0 := hk 0 (by simp)
      rw [Nat.add_zero, List.getElem?_cons_zero] at h0
      rw [h0]
      dsimp only
      rw [ih (k + 1) fun i hi => by
        have := hk (i + 1) (by simpa using hi)
        rw [List.getElem?_cons_succ] at this
        rw [← this]
        congr 1
        omega]
      rfl
  have := key c.refs 0 (fun i _ => by rw [Nat.zero_add])
  rw [← List.range_eq_range'] at this
  exact this

/-- What a stack prints. -/
def shownStack (alt : Bool) : List (Nat × CCell) → List Char
  | [] => []
  | (l, c) :: st => shown alt l c ++ shownStack alt st

def stackSteps : List (Nat × CCell) → Nat
  | [] => 0
  | (_, c) :: st => c.steps + stackSteps st

theorem shownStack_append (alt : Bool) (level : Nat) : ∀ (rs : List CCell) (st : List (Nat × CCell)),
    shownStack alt (rs.map (fun r => (level, r)) ++ st) = shownList alt level rs ++ shownStack alt st
  | [], st => rfl
  | r :: rs, st => by
    show shown alt level r ++ shownStack alt (rs.map _ ++ st) = (shown alt level r ++ shownList alt level rs) ++ _
    rw [shownStack_append alt level rs st, List.append_assoc]

theorem stackSteps_append (level : Nat) : ∀ (rs : List CCell) (st : List (Nat × CCell)),
    stackSteps (rs.map (fun r => (level, r)) ++ st) ≤ CCell.stepsList rs + stackSteps st
  | [], st => by simp [CCell.stepsList]
  | r :: rs, st => by
    show r.steps + stackSteps (rs.map _ ++ st) ≤ _
    have := stackSteps_append level rs st
    rw [CCell.stepsList]
    omega

theorem built_refs {H : Hasher} {c : CCell} (h : Built H c) : ∀ r ∈ c.refs, Built H r := by
  cases h with
  | mk hp hr h =>
    obtain ⟨hs, rfl⟩ := finalize_fields h
    exact hr

theorem treeGo_eq {H : Hasher} (alt : Bool) : ∀ (fuel : Nat) (st : List (Nat × CCell)) (out : List Char), (∀ x ∈ st, Built H x.2) → stackSteps st ≤ fuel →
    treeGo alt fuel st out = some (out ++ shownStack alt st)
  | fuel, [], out, _, _ => by cases fuel <;> simp [treeGo, shownStack]
  | 0, (l, c) :: st, out, _, h => by
    cases c with
    | mk d n bs rs hs => simp only [stackSteps, CCell.steps] at h; omega
  | fuel + 1, (l, c) :: st, out, hb, h => by
    rw [treeGo]
    have hc : Built H c := hb _ List.mem_cons_self
    rw [pushRefs_eq hc.facts.refs]
    cases c with
    | mk d n bs rs hs =>
      simp only [stackSteps, CCell.steps] at h
      have hs' := stackSteps_append (l + 1) rs st
      have e : (CCell.mk d n bs rs hs).refs = rs := rfl
      rw [e]
      rw [treeGo_eq alt fuel _ _ (fun x hx => by
        rcases List.mem_append.1 hx with hx | hx
        · obtain ⟨r, hr, rfl⟩ := List.mem_map.1 hx
          exact built_refs hc r hr
        · exact hb x (List.mem_cons_of_mem _ hx)) (by omega)]
      rw [shownStack_append]
      simp only [shownStack, shown, List.append_assoc]

/-! ### Texts without ambiguity -/

theorem split_at {x : Char} {n m r s : List Char} (hn : x ∉ n) (hm : x ∉ m) (h : n ++ x :: r = m ++ x :: s) : n = m ∧ r = s := by
  have h1 := Abi.splitOnce_app (b := r) hn
  rw [h, Abi.splitOnce_app hm] at h1
  injection h1 with h2
  injection h2 with h3 h4
  exact ⟨h3.symm, h4.symm⟩

theorem digits_no {b n : Nat} {c : Char} (hb : b = 10 ∨ b = 2) (hc : c.isDigit = false) : c ∉ Nat.toDigits b n := by
  intro h
  have : c.isDigit = true := by
    rcases hb with rfl | rfl
    · exact Nat.isDigit_of_mem_toDigits (by decide) (by decide) h
    · exact Nat.isDigit_of_mem_toDigits (by decide) (by decide) h
  rw [this] at hc
  cases hc

theorem hex_no {c : Char} (hc : c ∉ hexLower) : ∀ (bs : List Byte), c ∉ encodeHex hexLower bs
  | [] => by intro h; cases h
  | b :: bs => by
    unfold encodeHex
    rw [List.flatMap_cons, List.mem_append]
    rintro (h | h)
    · have hm : ∀ n : Fin 256, byteHex hexLower (BitVec.ofNat 8 n) ⊆ hexLower := by decide +kernel
      have := hm ⟨b.toNat, b.isLt⟩
      simp only [BitVec.ofNat_toNat, BitVec.setWidth_eq] at this
      exact hc (this h)
    · exact hex_no hc bs h

theorem hex_inj {a b : List Byte} (h : encodeHex hexLower a = encodeHex hexLower b) : a = b := by
  have h1 := (decodeHex_iff _ _ a (Nat.le_refl _)).2 (encodeHex_hexOf a).1
  have h2 := (decodeHex_iff _ _ b (Nat.le_refl _)).2 (encodeHex_hexOf b).1
  rw [h, h2] at h1
  injection h1 with h1
  exact h1.symm

theorem typeName_inj {a b : CellType} (h : typeName a = typeName b) : a = b := by
  cases a <;> cases b <;> first | rfl | exact absurd h (by decide)

theorem right4_inj {a b : Nat} (h : right4 a = right4 b) : a = b := by
  have key : ∀ n, (right4 n).filter (· != ' ') = Nat.toDigits 10 n := by
    intro n
    unfold right4 spaces
    rw [List.filter_append, List.filter_replicate]
    have : (Nat.toDigits 10 n).filter (· != ' ') = Nat.toDigits 10 n := by
      rw [List.filter_eq_self]
      intro c hc
      have := digits_no (b := 10) (n := n) (c := ' ') (Or.inl rfl) (by decide)
      simp only [bne_iff_ne, ne_eq]
      rintro rfl
      exact this hc
    rw [this]
    rfl
  have := key a
  rw [h, key b] at this
  exact Abi.dec_inj this.symm

theorem right4_no {n : Nat} {c : Char} (hc : c.isDigit = false) (hs : c ≠ ' ') : c ∉ right4 n := by
  unfold right4 spaces
  rw [List.mem_append]
  rintro (h | h)
  · exact hs (List.eq_of_mem_replicate h)
  · exact digits_no (Or.inl rfl) hc h

theorem mask_no {m : LevelMask} {c : Char} (hc : c.isDigit = false) : c ∉ maskText m := by
  unfold maskText
  rw [List.mem_append]
  rintro (h | h)
  · rw [List.eq_of_mem_replicate h] at hc; cases hc
  · exact digits_no (Or.inr rfl) hc h

/-- The text of a cell ends where it ends, and tells type, data, number of bits and of references. -/
theorem rootText_inj {level : Nat} {a b : CCell} {r s : List Char} (h : rootText false level a ++ r = rootText false level b ++ s) :
    a.desc.cellType = b.desc.cellType ∧ a.data = b.data ∧ a.bitLen = b.bitLen ∧ a.desc.referenceCount = b.desc.referenceCount ∧ a.depth 3 = b.depth 3 ∧ a.reprHash = b.reprHash ∧ r = s := by
  unfold rootText at h
  simp only [Bool.false_eq_true, if_false, List.append_assoc] at h
  have h1 := List.append_cancel_left h
  have tn : ∀ t, ':' ∉ typeName t := by intro t; cases t <;> decide
  obtain ⟨e1, h2⟩ := split_at (tn _) (tn _) h1
  have h3 := List.tail_eq_of_cons_eq h2
  obtain ⟨e2, h4⟩ := split_at (hex_no (by decide) _) (hex_no (by decide) _) h3
  have h5 := List.append_cancel_left (List.append_cancel_left (as := spaces (level * 2)) h4)
  obtain ⟨e3, h6⟩ := split_at (right4_no (by decide) (by decide)) (right4_no (by decide) (by decide)) h5
  have h7 := List.append_cancel_left (as := " refs: ".toList) h6
  obtain ⟨e4, h8⟩ := split_at (digits_no (Or.inl rfl) (by decide)) (digits_no (Or.inl rfl) (by decide)) h7
  have h9 := List.append_cancel_left (as := " l: ".toList) h8
  obtain ⟨e5, h10⟩ := split_at (mask_no (by decide)) (mask_no (by decide)) h9
  have h11 := List.append_cancel_left (as := " depth: ".toList) h10
  obtain ⟨e6, h12⟩ := split_at (digits_no (Or.inl rfl) (by decide)) (digits_no (Or.inl rfl) (by decide)) h11
  have h13 := List.append_cancel_left (as := " hash: ".toList) h12
  obtain ⟨e7, h14⟩ := split_at (hex_no (by decide) _) (hex_no (by decide) _) h13
  exact ⟨typeName_inj e1, hex_inj e2, right4_inj e3, Abi.dec_inj e4, Abi.dec_inj e6, hex_inj e7, h14⟩

theorem exotic_of_type {d : CellDescriptor} : d.isExotic = (d.cellType != .ordinary) := by
  unfold CellDescriptor.isExotic CellDescriptor.cellType
  by_cases h : d.d1 &&& 8 = 0
  · rw [if_pos h, h]; rfl
  · rw [if_neg h]
    have : (d.d1 &&& 8 != 0) = true := by simpa using h
    rw [this]
    split
    · split <;> rfl
    · split <;> rfl

theorem shown_step {H : Hasher} {level : Nat} {a b : CCell} (ha : Built H a) (hb : Built H b) {r s : List Char}
    (ih : a.refs.length = b.refs.length → shownList false (level + 1) a.refs ++ r = shownList false (level + 1) b.refs ++ s →
      CCell.treeList a.refs = CCell.treeList b.refs ∧ r = s)
    (h : rootText false level a ++ (shownList false (level + 1) a.refs ++ r) = rootText false level b ++ (shownList false (level + 1) b.refs ++ s)) :
    a.tree = b.tree ∧ r = s := by
  obtain ⟨e1, e2, e3, e4, _, _, h1⟩ := rootText_inj h
  have l1 := ha.facts.refs
  have l2 := hb.facts.refs
  obtain ⟨h2, h3⟩ := ih (by omega) h1
  refine ⟨?_, h3⟩
  cases a with
  | mk d n bs rs hs =>
    cases b with
    | mk d' n' bs' rs' hs' =>
      change d.cellType = d'.cellType at e1
      change bs = bs' at e2
      change n = n' at e3
      change CCell.treeList rs = CCell.treeList rs' at h2
      rw [CCell.tree, CCell.tree, h2, e2, e3, exotic_of_type, exotic_of_type, e1]

theorem shown_eq (alt : Bool) (level : Nat) (c : CCell) : shown alt level c = rootText alt level c ++ shownList alt (level + 1) c.refs := by
  cases c with
  | mk d n bs rs hs => rw [shown]; rfl

mutual
theorem shown_inj {H : Hasher} {level : Nat} : ∀ (a b : CCell), Built H a → Built H b → ∀ r s : List Char,
    shown false level a ++ r = shown false level b ++ s → a.tree = b.tree ∧ r = s
  | .mk d n bs rs hs => by
    intro b ha hb r s h
    rw [shown_eq, shown_eq, List.append_assoc, List.append_assoc] at h
    exact shown_step ha hb (fun hl h1 => shownList_inj rs b.refs hl (built_refs ha) (built_refs hb) r s h1) h
theorem shownList_inj {H : Hasher} {level : Nat} : ∀ (a b : List CCell), a.length = b.length → (∀ x ∈ a, Built H x) → (∀ x ∈ b, Built H x) → ∀ r s : List Char,
    shownList false level a ++ r = shownList false level b ++ s → CCell.treeList a = CCell.treeList b ∧ r = s
  | [], b, hl, _, _, r, s, h => by
    cases b with
    | nil => exact ⟨rfl, h⟩
    | cons y b => cases hl
  | x :: a, b, hl, ha, hb, r, s, h => by
    cases b with
    | nil => cases hl
    | cons y b =>
      rw [shownList, shownList, List.append_assoc, List.append_assoc] at h
      obtain ⟨h1, h2⟩ := shown_inj x y (ha x List.mem_cons_self) (hb y List.mem_cons_self) _ _ h
      obtain ⟨h3, h4⟩ := shownList_inj a b (by simpa using hl) (fun z hz => ha z (List.mem_cons_of_mem _ hz)) (fun z hz => hb z (List.mem_cons_of_mem _ hz)) r s h2
      exact ⟨by rw [CCell.treeList, CCell.treeList, h1, h3], h4⟩
end

/-! ### The short form -/

/-- What may follow the text of references at a level: the end, or a line that is less to the right. -/
def Stops (level : Nat) (r : List Char) : Prop := r = [] ∨ ∃ k x t, k < level ∧ r = spaces (k * 2) ++ x :: t ∧ x ≠ ' '

theorem spaces_split : ∀ {k l : Nat} {x y : Char} {r s : List Char}, x ≠ ' ' → y ≠ ' ' → spaces k ++ x :: r = spaces l ++ y :: s → k = l ∧ x = y ∧ r = s
  | 0, 0, x, y, r, s, _, _, h => by injection h with h1 h2; exact ⟨rfl, h1, h2⟩
  | 0, l + 1, x, y, r, s, hx, _, h => by injection h with h1 h2; exact absurd h1 hx
  | k + 1, 0, x, y, r, s, _, hy, h => by injection h with h1 h2; exact absurd h1.symm hy
  | k + 1, l + 1, x, y, r, s, hx, hy, h => by
    injection h with h1 h2
    obtain ⟨h3, h4⟩ := spaces_split (k := k) (l := l) hx hy h2
    exact ⟨by rw [h3], h4⟩

/-- A line starts with its indentation and then something else. -/
theorem line_starts (level : Nat) (c : CCell) (r : List Char) : ∃ x t, rootText true level c ++ r = spaces (level * 2) ++ x :: t ∧ x ≠ ' ' ∧
    encodeHex hexLower c.data ++ '\n' :: r = x :: t := by
  unfold rootText
  rw [if_pos rfl]
  have hno := hex_no (c := ' ') (by decide) c.data
  cases he : encodeHex hexLower c.data with
  | nil => exact ⟨'\n', r, by simp [he], by decide, rfl⟩
  | cons x t => exact ⟨x, t ++ '\n' :: r, by simp [he], fun e => hno (by rw [he, e]; exact List.mem_cons_self), rfl⟩

theorem shown_starts (level : Nat) (c : CCell) (r : List Char) : ∃ x t, shown true level c ++ r = spaces (level * 2) ++ x :: t ∧ x ≠ ' ' := by
  cases c with
  | mk d n bs rs hs =>
    rw [shown, List.append_assoc]
    obtain ⟨x, t, h1, h2, _⟩ := line_starts level (.mk d n bs rs hs) (shownList true (level + 1) rs ++ r)
    exact ⟨x, t, h1, h2⟩


theorem not_stops {level : Nat} {r s : List Char} {c : CCell} (hr : Stops level r) : r ≠ shown true level c ++ s := by
  intro e
  obtain ⟨x, t, h1, h2⟩ := shown_starts level c s
  rw [h1] at e
  rcases hr with rfl | ⟨k, y, u, hk, rfl, hy⟩
  · exact absurd e.symm (by simp)
  · have := (spaces_split hy h2 e).1
    omega

theorem stops_next {level : Nat} {r : List Char} (hr : Stops level r) : Stops (level + 1) r := by
  rcases hr with rfl | ⟨k, y, u, hk, rfl, hy⟩
  · exact .inl rfl
  · exact .inr ⟨k, y, u, by omega, rfl, hy⟩

theorem stops_list {level : Nat} {r : List Char} (hr : Stops level r) : ∀ l : List CCell, Stops (level + 1) (shownList true level l ++ r)
  | [] => stops_next hr
  | c :: l => by
    rw [shownList, List.append_assoc]
    obtain ⟨x, t, h1, h2⟩ := shown_starts level c (shownList true level l ++ r)
    exact .inr ⟨level, x, t, by omega, h1, h2⟩

mutual
theorem short_inj {level : Nat} : ∀ (a b : CCell) (r s : List Char), Stops (level + 1) r → Stops (level + 1) s →
    shown true level a ++ r = shown true level b ++ s → bytesTree a = bytesTree b ∧ r = s
  | .mk d n bs rs hs, b, r, s, hr, hs', h => by
    cases b with
    | mk d' n' bs' rs' hs'' =>
      rw [shown, shown, List.append_assoc, List.append_assoc] at h
      unfold rootText at h
      simp only [if_true, List.append_assoc] at h
      obtain ⟨e1, h1⟩ := split_at (hex_no (by decide) _) (hex_no (by decide) _) (List.append_cancel_left h)
      obtain ⟨h2, h3⟩ := shorts_inj rs rs' r s hr hs' h1
      refine ⟨?_, h3⟩
      have e1 : bs = bs' := hex_inj e1
      rw [bytesTree, bytesTree, h2, e1]
theorem shorts_inj {level : Nat} : ∀ (a b : List CCell) (r s : List Char), Stops level r → Stops level s →
    shownList true level a ++ r = shownList true level b ++ s → bytesTrees a = bytesTrees b ∧ r = s
  | [], b, r, s, hr, hs, h => by
    cases b with
    | nil => exact ⟨rfl, h⟩
    | cons y b =>
      rw [shownList, shownList, List.append_assoc] at h
      exact absurd h (not_stops hr)
  | x :: a, b, r, s, hr, hs, h => by
    cases b with
    | nil =>
      rw [shownList, shownList, List.append_assoc] at h
      exact absurd h.symm (not_stops hs)
    | cons y b =>
      rw [shownList, shownList, List.append_assoc, List.append_assoc] at h
      obtain ⟨h1, h2⟩ := short_inj x y _ _ (stops_list hr a) (stops_list hs b) h
      obtain ⟨h3, h4⟩ := shorts_inj a b r s hr hs h2
      exact ⟨by rw [bytesTrees, bytesTrees, h1, h3], h4⟩
end

/-! ### Equal trees -/

theorem rootText_of_tree {H : Hasher} {a b : CCell} (ha : Built H a) (hb : Built H b) (h : a.tree = b.tree) (alt : Bool) (level : Nat) :
    rootText alt level a = rootText alt level b := by
  obtain ⟨e1, e2, e3⟩ := Merkle.same_desc ha hb h
  have e4 : a.bitLen = b.bitLen := by rw [← ha.facts.len, ← hb.facts.len, h]
  have e5 : a.data = b.data := bytesToBits_inj (by rw [ha.facts.tagged, hb.facts.tagged, h])
  have e6 : a.desc.cellType = b.desc.cellType := by
    have h1 := ha.facts.type
    have h2 := hb.facts.type
    rw [e2, h, h2] at h1
    injection h1 with h1
    exact h1.symm
  have e7 : a.depth 3 = b.depth 3 := by rw [ha.facts.agrees.depth 3, hb.facts.agrees.depth 3, h]
  have e8 : a.reprHash = b.reprHash := by
    unfold CCell.reprHash
    rw [ha.facts.agrees.hash 3, hb.facts.agrees.hash 3, h]
  unfold rootText
  rw [e1, e3, e4, e5, e6, e7, e8]

mutual
theorem shown_of_tree {H : Hasher} {alt : Bool} : ∀ (a b : CCell) (level : Nat), Built H a → Built H b → a.tree = b.tree → shown alt level a = shown alt level b
  | .mk d n bs rs hs, b, level, ha, hb, h => by
    have h1 := rootText_of_tree ha hb h alt level
    cases b with
    | mk d' n' bs' rs' hs' =>
      rw [shown, shown, h1]
      have h2 : CCell.treeList rs = CCell.treeList rs' := by
        rw [CCell.tree, CCell.tree] at h
        injection h
      rw [shownList_of_tree rs rs' (level + 1) (built_refs ha) (built_refs hb) h2]
theorem shownList_of_tree {H : Hasher} {alt : Bool} : ∀ (a b : List CCell) (level : Nat), (∀ x ∈ a, Built H x) → (∀ x ∈ b, Built H x) →
    CCell.treeList a = CCell.treeList b → shownList alt level a = shownList alt level b
  | [], b, level, _, _, h => by
    cases b with
    | nil => rfl
    | cons y b => cases h
  | x :: a, b, level, ha, hb, h => by
    cases b with
    | nil => cases h
    | cons y b =>
      rw [CCell.treeList, CCell.treeList] at h
      injection h with h1 h2
      rw [shownList, shownList, shown_of_tree x y level (ha x List.mem_cons_self) (hb y List.mem_cons_self) h1,
        shownList_of_tree a b level (fun z hz => ha z (List.mem_cons_of_mem _ hz)) (fun z hz => hb z (List.mem_cons_of_mem _ hz)) h2]
end

end CellText
end Verif
