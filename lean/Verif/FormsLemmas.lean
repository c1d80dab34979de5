import Verif.Forms
import Verif.BocReprProps
import Verif.AbiTextFull
import Verif.TypedDictMore
/-
C93: what `serde` writes is read back.
-/
set_option linter.unusedVariables false
namespace Verif
namespace Form
open Text

/-! ### Specification -/

/-- Every value with `ok` is written, and what was written is read as this value. -/
def Back {α : Type} (F : Form α) (r : Bool) (ok : α → Prop) : Prop := ∀ v, ok v → ∃ x, F.ser r v = some x ∧ F.de r x = some v

/-- Whatever is read has `ok`. -/
def Only {α : Type} (F : Form α) (r : Bool) (ok : α → Prop) : Prop := ∀ x v, F.de r x = some v → ok v

/-- No value looks like the absent one. -/
def Solid {α : Type} (F : Form α) (r : Bool) : Prop := ∀ v, F.ser r v ≠ some .null

/-- Cells that are well-formed, with few enough different cells in them that do not collide. -/
def Carried (H : Hasher) (c : Cell) : Prop := c.WF H ∧ Boc.Distinct H c (2 ^ 32 - 1) ∧ ¬ Collision H c c

/-! ### Proofs -/

section
variable {α β : Type}

theorem back_bool (r : Bool) : Back bool r (fun _ => True) := fun v _ => ⟨.bool v, rfl, rfl⟩

theorem back_nat (r : Bool) (max : Nat) : Back (nat max) r (fun v => v ≤ max) := by
  intro v h
  refine ⟨.num v, rfl, ?_⟩
  show (if 0 ≤ (v : Int) ∧ (v : Int) ≤ max then some (v : Int).toNat else none) = _
  rw [if_pos ⟨by omega, by omega⟩]
  rfl

theorem only_nat (r : Bool) (max : Nat) : Only (nat max) r (fun v => v ≤ max) := by
  intro x v h
  unfold nat at h
  dsimp only at h
  split at h
  · rename_i n
    by_cases g : 0 ≤ n ∧ n ≤ (max : Int)
    · rw [if_pos g] at h
      injection h with h
      omega
    · rw [if_neg g] at h; cases h
  · cases h

theorem back_int (r : Bool) (half : Nat) : Back (int half) r (fun v => -(half : Int) ≤ v ∧ v < half) := by
  intro v h
  refine ⟨.num v, rfl, ?_⟩
  show (if -(half : Int) ≤ v ∧ v < half then some v else none) = _
  rw [if_pos h]

theorem only_int (r : Bool) (half : Nat) : Only (int half) r (fun v => -(half : Int) ≤ v ∧ v < half) := by
  intro x v h
  unfold int at h
  dsimp only at h
  split at h
  · rename_i n
    by_cases g : -(half : Int) ≤ n ∧ n < (half : Int)
    · rw [if_pos g] at h
      injection h with h
      rw [← h]; exact g
    · rw [if_neg g] at h; cases h
  · cases h

theorem back_opt {F : Form α} {r : Bool} {ok : α → Prop} (h : Back F r ok) (hs : Solid F r) : Back F.opt r (fun o => ∀ v, o = some v → ok v) := by
  intro o ho
  cases o with
  | none => exact ⟨.null, rfl, rfl⟩
  | some v =>
    obtain ⟨x, h1, h2⟩ := h v (ho v rfl)
    refine ⟨x, h1, ?_⟩
    cases x with
    | null => exact absurd h1 (hs v)
    | _ => show (F.de r _).map some = _; rw [h2]; rfl

theorem only_opt {F : Form α} {r : Bool} {ok : α → Prop} (h : Only F r ok) : Only F.opt r (fun o => ∀ v, o = some v → ok v) := by
  intro x o ho v hv
  subst hv
  cases x with
  | null => cases ho
  | _ =>
    have ho : (F.de r _).map some = some (some v) := ho
    obtain ⟨w, hw, e⟩ := Option.map_eq_some_iff.1 ho
    injection e with e
    subst e
    exact h _ _ hw

theorem back_vec {F : Form α} {r : Bool} {ok : α → Prop} (h : Back F r ok) : Back (vec F) r (fun l => ∀ v ∈ l, ok v) := by
  intro l hl
  have : ∃ xs, l.mapM (F.ser r) = some xs ∧ xs.mapM (F.de r) = some l := by
    induction l with
    | nil => exact ⟨[], rfl, rfl⟩
    | cons v l ih =>
      obtain ⟨xs, h1, h2⟩ := ih (fun w hw => hl w (List.mem_cons_of_mem _ hw))
      obtain ⟨x, g1, g2⟩ := h v (hl v List.mem_cons_self)
      exact ⟨x :: xs, by rw [List.mapM_cons, g1, h1]; rfl, by rw [List.mapM_cons, g2, h2]; rfl⟩
  obtain ⟨xs, h1, h2⟩ := this
  exact ⟨.seq xs, by show (l.mapM (F.ser r)).map SV.seq = _; rw [h1]; rfl, h2⟩

theorem only_vec {F : Form α} {r : Bool} {ok : α → Prop} (h : Only F r ok) : Only (vec F) r (fun l => ∀ v ∈ l, ok v) := by
  intro x l hl
  cases x with
  | seq xs =>
    have hl : xs.mapM (F.de r) = some l := hl
    induction xs generalizing l with
    | nil => injection hl with hl; subst hl; intro v hv; cases hv
    | cons x xs ih =>
      rw [List.mapM_cons] at hl
      cases hx : F.de r x with
      | none => rw [hx] at hl; cases hl
      | some v =>
        rw [hx] at hl
        cases hxs : xs.mapM (F.de r) with
        | none => rw [hxs] at hl; cases hl
        | some vs =>
          rw [hxs] at hl
          injection hl with hl
          subst hl
          intro w hw
          cases hw with
          | head => exact h _ _ hx
          | tail _ hw => exact ih _ hxs hxs w hw
  | _ => cases hl

theorem back_pair {A : Form α} {B : Form β} {r : Bool} {okA : α → Prop} {okB : β → Prop} (hA : Back A r okA) (hB : Back B r okB) :
    Back (pair A B) r (fun p => okA p.1 ∧ okB p.2) := by
  rintro ⟨a, b⟩ ⟨ha, hb⟩
  obtain ⟨x, h1, h2⟩ := hA a ha
  obtain ⟨y, h3, h4⟩ := hB b hb
  refine ⟨.seq [x, y], ?_, ?_⟩
  · unfold pair; dsimp only; rw [h1, h3]
  · unfold pair; dsimp only; rw [h2, h4]

theorem only_pair {A : Form α} {B : Form β} {r : Bool} {okA : α → Prop} {okB : β → Prop} (hA : Only A r okA) (hB : Only B r okB) :
    Only (pair A B) r (fun p => okA p.1 ∧ okB p.2) := by
  intro x p h
  unfold pair at h
  dsimp only at h
  split at h
  · split at h
    · rename_i h1 h2
      injection h with h
      subst h
      exact ⟨hA _ _ h1, hB _ _ h2⟩
    · cases h
  · cases h

theorem parseInt_range {half : Nat} {t : List Char} {n : Int} (h0 : 0 < half) (h : parseInt half t = some n) : -(half : Int) ≤ n ∧ n < half := by
  unfold parseInt at h
  split at h
  · split at h
    · rename_i m _
      by_cases g : m ≤ half
      · rw [if_pos g] at h; injection h with h; omega
      · rw [if_neg g] at h; cases h
    · cases h
  · split at h
    · rename_i g
      injection h with h
      have := Abi.parseUint_le g
      omega
    · cases h

/-! ### Scalars -/

theorem max_lt (k : VarKind) : k.max ≤ 2 ^ (8 * k.size) - 1 := by cases k <;> decide

theorem back_varint (r : Bool) (k : VarKind) : Back (varint k) r (fun v => v ≤ k.max) := by
  intro v h
  unfold varint
  by_cases hk : k = .tokens ∧ r = true
  · refine ⟨.str (Nat.toDigits 10 v), by simp only [if_pos hk], ?_⟩
    simp only [if_pos hk]
    have hm : v ≤ 2 ^ 128 - 1 := by
      have := max_lt k
      rw [hk.1] at this h
      exact Nat.le_trans h this
    rw [parseUint_plain (parseDigits_dec v) (by decide) hm]
    dsimp only
    rw [if_pos (by unfold VarKind.isValid; exact decide_eq_true h)]
  · refine ⟨.num v, by simp only [if_neg hk], ?_⟩
    simp only [if_neg hk]
    obtain ⟨x, h1, h2⟩ := back_nat r (2 ^ (8 * k.size) - 1) v (Nat.le_trans h (max_lt k))
    injection h1 with h1
    subst h1
    rw [h2]
    dsimp only
    rw [if_pos (by unfold VarKind.isValid; exact decide_eq_true h)]

theorem only_varint (r : Bool) (k : VarKind) : Only (varint k) r (fun v => v ≤ k.max) := by
  intro x v h
  unfold varint at h
  dsimp only at h
  split at h
  · split at h
    · rename_i g
      injection h with h
      subst h
      exact of_decide_eq_true g
    · cases h
  · cases h

theorem back_hash (r : Bool) : Back hash r (fun h => h.length = 32) := by
  intro h hl
  cases r with
  | true => exact ⟨.str (encodeHex hexLower h), rfl, (decodeToSlice_spec 32 _ _).2 ⟨(encodeHex_hexOf h).1, hl⟩⟩
  | false => exact ⟨.bytes h, rfl, by show (if h.length = 32 then some h else none) = _; rw [if_pos hl]⟩

theorem only_hash (r : Bool) : Only hash r (fun h => h.length = 32) := by
  intro x h hx
  unfold hash at hx
  cases r with
  | true =>
    cases x with
    | str t => exact ((decodeToSlice_spec 32 t h).1 hx).2
    | _ => cases hx
  | false =>
    cases x with
    | bytes b =>
      have hx : (if b.length = 32 then some b else none) = some h := hx
      by_cases g : b.length = 32
      · rw [if_pos g] at hx; injection hx with hx; rw [← hx]; exact g
      · rw [if_neg g] at hx; cases hx
    | _ => cases hx

theorem back_splitDepth (r : Bool) : Back splitDepth r (fun v => 0 < v ∧ v ≤ 255) := by
  intro v h
  obtain ⟨x, h1, h2⟩ := back_nat r 255 v h.2
  refine ⟨x, h1, ?_⟩
  unfold splitDepth
  dsimp only
  rw [h2]
  dsimp only
  unfold splitDepthNew
  rw [if_neg (by omega)]
  rfl

theorem only_splitDepth (r : Bool) : Only splitDepth r (fun v => 0 < v ∧ v ≤ 255) := by
  intro x v h
  unfold splitDepth at h
  dsimp only at h
  cases g : (nat 255).de r x with
  | none => rw [g] at h; cases h
  | some w =>
    rw [g] at h
    dsimp only at h
    unfold splitDepthNew at h
    have := only_nat r 255 x w g
    by_cases e : w = 0
    · rw [if_pos e] at h; cases h
    · rw [if_neg e] at h
      injection h with h
      omega

theorem back_shard (r : Bool) : Back shard r (fun s => IsI32 s.workchain ∧ ShardIdent.new s.workchain s.pfx = some s) := by
  rintro s ⟨h1, h2⟩
  cases r with
  | true => exact ⟨.str s.display, rfl, ShardIdent.C55_shard h1 h2⟩
  | false =>
    obtain ⟨x, g1, g2⟩ := back_pair (back_int false (2 ^ 31)) (back_nat false (2 ^ 64 - 1)) (s.workchain, s.pfx.toNat)
      ⟨h1, by have := s.pfx.isLt; show s.pfx.toNat ≤ _; omega⟩
    refine ⟨x, g1, ?_⟩
    show (match (pair (int (2 ^ 31)) (nat (2 ^ 64 - 1))).de false x with
      | some (w, p) => ShardIdent.new w (BitVec.ofNat 64 p)
      | none => none) = _
    rw [g2]
    show ShardIdent.new s.workchain (BitVec.ofNat 64 s.pfx.toNat) = _
    rw [BitVec.ofNat_toNat, BitVec.setWidth_eq, h2]

theorem only_shard (r : Bool) : Only shard r (fun s => IsI32 s.workchain ∧ ShardIdent.new s.workchain s.pfx = some s) := by
  intro x s h
  unfold shard at h
  cases r with
  | true =>
    cases x with
    | str t =>
      obtain ⟨a, b, n, _, g1, _, _, g2, _⟩ := ShardIdent.C55_shard_accept h
      exact ⟨parseInt_range (by decide) g1, g2⟩
    | _ => cases h
  | false =>
    have h : (match (pair (int (2 ^ 31)) (nat (2 ^ 64 - 1))).de false x with
      | some (w, p) => ShardIdent.new w (BitVec.ofNat 64 p)
      | none => none) = some s := h
    cases g : (pair (int (2 ^ 31)) (nat (2 ^ 64 - 1))).de false x with
    | none => rw [g] at h; cases h
    | some p =>
      obtain ⟨w, p⟩ := p
      rw [g] at h
      have h : ShardIdent.new w (BitVec.ofNat 64 p) = some s := h
      have e := (ShardIdent.C46_new _ _).2 s h
      have := (only_pair (only_int false (2 ^ 31)) (only_nat false (2 ^ 64 - 1)) _ _ g).1
      subst e
      exact ⟨this, h⟩

theorem back_stdAddr (r : Bool) : Back stdAddr r (fun a => a.Ok ∧ a.anycast = none) := by
  rintro a ⟨h1, h2⟩
  cases r with
  | true =>
    refine ⟨.str a.display, rfl, ?_⟩
    show (StdAddr.fromStr a.display).toOption = _
    rw [(StdAddr.C47_raw_partial h1 h2 ⟨true, true, true⟩ rfl).1]
    rfl
  | false =>
    obtain ⟨x, g1, g2⟩ := back_pair (back_int false (2 ^ 7)) (back_hash false) (a.workchain, a.address) ⟨h1.2.1, h1.2.2⟩
    refine ⟨x, g1, ?_⟩
    show ((pair (int (2 ^ 7)) hash).de false x).map _ = _
    rw [g2]
    show some (⟨none, a.workchain, a.address⟩ : StdAddr) = some a
    rw [← h2]

theorem only_stdAddr (r : Bool) : Only stdAddr r (fun a => a.Ok ∧ a.anycast = none) := by
  intro x a h
  unfold stdAddr at h
  cases r with
  | true =>
    cases x with
    | str t =>
      have h : (StdAddr.fromStr t).toOption = some a := h
      cases g : StdAddr.fromStr t with
      | error e => rw [g] at h; cases h
      | ok b =>
        rw [g] at h
        injection h with h
        subst h
        obtain ⟨p, y, _, _, g1, _, g2, g3⟩ := (StdAddr.fromStr_iff _ _).1 g
        exact ⟨⟨by rw [g3]; trivial, parseInt_range (by decide) g1, g2⟩, g3⟩
    | _ => cases h
  | false =>
    have h : ((pair (int (2 ^ 7)) hash).de false x).map (fun p => (⟨none, p.1, p.2⟩ : StdAddr)) = some a := h
    obtain ⟨p, g1, g2⟩ := Option.map_eq_some_iff.1 h
    have := only_pair (only_int false (2 ^ 7)) (only_hash false) _ _ g1
    subst g2
    exact ⟨⟨trivial, this.1, this.2⟩, rfl⟩

theorem back_byte (r : Bool) : Back byte r (fun _ => True) := by
  intro b _
  obtain ⟨x, h1, h2⟩ := back_nat r 255 b.toNat (by have := b.isLt; omega)
  refine ⟨x, h1, ?_⟩
  show ((nat 255).de r x).map (BitVec.ofNat 8) = _
  rw [h2]
  simp

theorem back_extAddr : Back extAddr true (fun a => a.len ≤ 511 ∧ HoldsBits a.data a.len) ∧ Back extAddr false (fun a => a.len ≤ 511) := by
  constructor
  · rintro a ⟨h1, h2⟩
    refine ⟨.str a.display, rfl, ?_⟩
    show (ExtAddr.fromStr a.display).toOption = _
    rw [C47_ext h1 h2]
    rfl
  · intro a h
    obtain ⟨x, g1, g2⟩ := back_pair (back_nat false (2 ^ 16 - 1)) (back_vec (back_byte false)) (a.len, a.data)
      ⟨by show a.len ≤ _; omega, fun _ _ => trivial⟩
    refine ⟨x, g1, ?_⟩
    show (match (pair (nat (2 ^ 16 - 1)) (vec byte)).de false x with
      | some (n, d) => ExtAddr.new n d
      | none => none) = _
    rw [g2]
    show (if a.len ≤ smallMax 9 then some (⟨a.len, a.data⟩ : ExtAddr) else none) = _
    rw [if_pos (show a.len ≤ smallMax 9 from h)]

/-- What a serializer shows of a `VarUint248` comes back from formats that are not readable. -/
theorem back_v248 : Back v248 false (fun v => v.WF) := by
  intro v h
  obtain ⟨x, g1, g2⟩ := back_pair (back_nat false (2 ^ 128 - 1)) (back_nat false (2 ^ 128 - 1)) (v.hi, v.lo)
    ⟨by have := h.1; show v.hi ≤ _; unfold W128 at this; omega, by have := h.2; show v.lo ≤ _; unfold W128 at this; omega⟩
  refine ⟨x, g1, ?_⟩
  show ((pair (nat (2 ^ 128 - 1)) (nat (2 ^ 128 - 1))).de false x).map _ = _
  rw [g2]
  rfl

theorem back_v248_text {v : V248} (h : v.WF) (hv : v.val < 2 ^ 248) :
    ∃ x, v248.ser true v = some x ∧ (v248.de true x = some v ↔ v.val < 2 ^ 128 + 4 ∨ 10 ^ 64 ≤ v.val) := by
  obtain ⟨t, h1, h2⟩ := V248.C54_round_partial h hv
  refine ⟨.str t, ?_, ?_⟩
  · unfold v248
    dsimp only
    rw [if_pos rfl, h1]
  · rw [← h2]
    show (V248.fromStrRadix 10 t).toOption = some v ↔ _
    cases V248.fromStrRadix 10 t with
    | ok a => exact ⟨fun h => by injection h with h; rw [h], fun h => by injection h with h; rw [h]; rfl⟩
    | error e => exact ⟨fun h => (nomatch h), fun h => (nomatch h)⟩

/-! ### Cells -/

theorem solid_cell (H : Hasher) (r : Bool) : Solid (cell H) r := by
  intro v h
  unfold cell at h
  dsimp only at h
  split at h
  · split at h <;> cases h
  · cases h

theorem back_cell (H : Hasher) (r : Bool) : Back (cell H) r (Carried H) := by
  rintro t ⟨h1, h2, h3⟩
  obtain ⟨c, f⟩ := (Boc.finish_both t).1 h1
  have hd : Boc.AtMost [c] (2 ^ 32 - 1) := Boc.Distinct.atMost f.built (by rw [f.tree]; exact h2)
  rcases Boc.C91_text H f.built f.plain hd with h | ⟨_, _, h⟩
  · rw [f.tree] at h; exact absurd h h3
  · have e : ∀ s, Boc.serialize r c = s → (cell H).ser r t = (match s with
      | .text t => some (SV.str t)
      | .bytes b => some (.bytes b)) ∧ (Boc.deserialize H r s).toOption.map CCell.tree = some t := by
      intro s hs
      refine ⟨?_, ?_⟩
      · unfold cell
        dsimp only
        rw [f.run]
        dsimp only
        rw [hs]
        cases s <;> rfl
      · rw [← hs, h r]
        show some c.tree = _
        rw [f.tree]
    cases hs : Boc.serialize r c with
    | text s => exact ⟨.str s, (e _ hs).1, (e _ hs).2⟩
    | bytes b => exact ⟨.bytes b, (e _ hs).1, (e _ hs).2⟩

/-! ### Structures -/

/-- Fields that are written under their names and read from anything that has the same under these names. -/
structure Good (A : Fields α) (r : Bool) (ok : α → Prop) : Prop where
  back : ∀ v, ok v → ∃ l, A.ser r v = some l ∧ (l.map Prod.fst).Sublist A.names ∧ A.de r l = some v
  loc : ∀ l l', (∀ n ∈ A.names, pick n l = pick n l') → A.de r l = A.de r l'

theorem pick_single (n : List Char) (x : SV) : pick n [(n, x)] = some (some x) := by
  unfold pick
  rw [List.filter_cons_of_pos (by simp)]
  rfl

theorem pick_nil {n : List Char} {l : Entries} (h : n ∉ l.map Prod.fst) : pick n l = some none := by
  unfold pick
  rw [List.filter_eq_nil_iff.2]
  intro e he g
  exact h (List.mem_map.2 ⟨e, he, eq_of_beq g⟩)

theorem pick_append {n : List Char} {l l' : Entries} (h : n ∉ l'.map Prod.fst) : pick n (l ++ l') = pick n l := by
  have : l'.filter (fun e => e.1 == n) = [] := by
    rw [List.filter_eq_nil_iff]
    intro e he g
    exact h (List.mem_map.2 ⟨e, he, eq_of_beq g⟩)
  unfold pick
  rw [List.filter_append, this, List.append_nil]

/-- With different names the order does not matter. -/
theorem pick_perm {n : List Char} {l l' : Entries} (hp : l.Perm l') : pick n l = pick n l' := by
  unfold pick
  have h := hp.filter (fun e => e.1 == n)
  revert h
  generalize l.filter (fun e => e.1 == n) = a
  generalize l'.filter (fun e => e.1 == n) = b
  intro h
  cases a with
  | nil => rw [List.nil_perm.1 h]
  | cons x a =>
    cases a with
    | nil => rw [List.singleton_perm.1 h]
    | cons y a =>
      have hl := h.length_eq
      cases b with
      | nil => simp at hl
      | cons u b =>
        cases b with
        | nil => simp at hl
        | cons w b => rfl

theorem good_field {F : Form α} {r : Bool} {ok : α → Prop} (n : List Char) (h : Back F r ok) : Good (field n F) r ok := by
  refine ⟨fun v hv => ?_, fun l l' e => ?_⟩
  · obtain ⟨x, h1, h2⟩ := h v hv
    refine ⟨[(n, x)], ?_, List.Sublist.refl _, ?_⟩
    · show (F.ser r v).map _ = _; rw [h1]; rfl
    · show (match pick n [(n, x)] with | some (some x) => F.de r x | _ => none) = _
      rw [pick_single]
      exact h2
  · show (match pick n l with | some (some x) => F.de r x | _ => none) = (match pick n l' with | some (some x) => F.de r x | _ => none)
    rw [e n List.mem_cons_self]

theorem good_fieldOr {F : Form α} {r : Bool} {ok : α → Prop} (n : List Char) (d : α) (h : Back F r ok) : Good (fieldOr n F d) r ok := by
  refine ⟨fun v hv => ?_, fun l l' e => ?_⟩
  · obtain ⟨x, h1, h2⟩ := h v hv
    refine ⟨[(n, x)], ?_, List.Sublist.refl _, ?_⟩
    · show (F.ser r v).map _ = _; rw [h1]; rfl
    · show (match pick n [(n, x)] with | some (some x) => F.de r x | some none => some d | none => none) = _
      rw [pick_single]
      exact h2
  · show (match pick n l with | some (some x) => F.de r x | some none => some d | none => none) =
      (match pick n l' with | some (some x) => F.de r x | some none => some d | none => none)
    rw [e n List.mem_cons_self]

theorem good_fieldSkip {F : Form α} {r : Bool} {ok : α → Prop} (n : List Char) (h : Back F r ok) (hs : Solid F r) :
    Good (fieldSkip n F) r (fun o => ∀ v, o = some v → ok v) := by
  refine ⟨fun o ho => ?_, fun l l' e => ?_⟩
  · cases o with
    | none =>
      refine ⟨[], rfl, List.nil_sublist _, ?_⟩
      show (match pick n [] with | some (some x) => F.opt.de r x | some none => some none | none => none) = _
      rw [pick_nil (by simp)]
    | some v =>
      obtain ⟨x, h1, h2⟩ := back_opt h hs (some v) ho
      refine ⟨[(n, x)], ?_, List.Sublist.refl _, ?_⟩
      · show (F.ser r v).map _ = _
        have h1 : F.ser r v = some x := h1
        rw [h1]; rfl
      · show (match pick n [(n, x)] with | some (some x) => F.opt.de r x | some none => some none | none => none) = _
        rw [pick_single]
        exact h2
  · show (match pick n l with | some (some x) => F.opt.de r x | some none => some none | none => none) =
      (match pick n l' with | some (some x) => F.opt.de r x | some none => some none | none => none)
    rw [e n List.mem_cons_self]

theorem good_and {A : Fields α} {B : Fields β} {r : Bool} {okA : α → Prop} {okB : β → Prop} (hA : Good A r okA) (hB : Good B r okB)
    (hd : ∀ n ∈ A.names, n ∉ B.names) : Good (A.and B) r (fun p => okA p.1 ∧ okB p.2) := by
  refine ⟨?_, fun l l' e => ?_⟩
  · rintro ⟨a, b⟩ ⟨ha, hb⟩
    obtain ⟨l, h1, h2, h3⟩ := hA.back a ha
    obtain ⟨l', h4, h5, h6⟩ := hB.back b hb
    refine ⟨l ++ l', ?_, ?_, ?_⟩
    · unfold Fields.and; dsimp only; rw [h1, h4]
    · rw [List.map_append]; exact h2.append h5
    · have e1 : A.de r (l ++ l') = A.de r l := hA.loc _ _ fun n hn => pick_append fun g => hd n hn (h5.subset g)
      have e2 : B.de r (l ++ l') = B.de r l' := hB.loc _ _ fun n hn => by
        rw [pick_perm List.perm_append_comm]
        exact pick_append fun g => hd n (h2.subset g) hn
      unfold Fields.and; dsimp only; rw [e1, e2, h3, h6]
  · have e1 := hA.loc l l' fun n hn => e n (List.mem_append_left _ hn)
    have e2 := hB.loc l l' fun n hn => e n (List.mem_append_right _ hn)
    unfold Fields.and; dsimp only; rw [e1, e2]

theorem good_as {A : Fields α} {r : Bool} {ok : α → Prop} {okB : β → Prop} {f : α → β} {g : β → α} (hA : Good A r ok)
    (h : ∀ b, okB b → ok (g b) ∧ f (g b) = b) : Good (A.as f g) r okB := by
  refine ⟨fun b hb => ?_, fun l l' e => ?_⟩
  · obtain ⟨l, h1, h2, h3⟩ := hA.back (g b) (h b hb).1
    refine ⟨l, h1, h2, ?_⟩
    show (A.de r l).map f = _
    rw [h3]
    show some (f (g b)) = _
    rw [(h b hb).2]
  · show (A.de r l).map f = (A.de r l').map f
    rw [hA.loc l l' e]

theorem Good.mono {A : Fields α} {r : Bool} {ok ok' : α → Prop} (h : Good A r ok) (i : ∀ v, ok' v → ok v) : Good A r ok' :=
  ⟨fun v hv => h.back v (i v hv), h.loc⟩

theorem Back.mono {F : Form α} {r : Bool} {ok ok' : α → Prop} (h : Back F r ok) (i : ∀ v, ok' v → ok v) : Back F r ok' :=
  fun v hv => h v (i v hv)

theorem namesOf_map (l : Entries) : namesOf (l.map fun e => (SV.str e.1, e.2)) = some l := by
  induction l with
  | nil => rfl
  | cons e l ih =>
    show (namesOf (l.map fun e => (SV.str e.1, e.2))).map _ = _
    rw [ih]; rfl

/-- The map with these entries. -/
def mapOf (l : Entries) : SV := .map (l.map fun e => (.str e.1, e.2))

theorem struct_de (A : Fields α) (r : Bool) (l : Entries) : (struct A).de r (mapOf l) = A.de r l := by
  show (match namesOf (l.map fun e => (SV.str e.1, e.2)) with | some l => A.de r l | none => none) = _
  rw [namesOf_map]

theorem back_struct {A : Fields α} {r : Bool} {ok : α → Prop} (h : Good A r ok) : Back (struct A) r ok := by
  intro v hv
  obtain ⟨l, h1, h2, h3⟩ := h.back v hv
  refine ⟨mapOf l, ?_, ?_⟩
  · show (A.ser r v).map _ = _; rw [h1]; rfl
  · rw [struct_de, h3]

theorem solid_struct (A : Fields α) (r : Bool) : Solid (struct A) r := by
  intro v h
  have h : (A.ser r v).map _ = some SV.null := h
  obtain ⟨l, _, e⟩ := Option.map_eq_some_iff.1 h
  cases e

/-- Whatever these fields are read as has `ok`. -/
def OnlyF (A : Fields α) (r : Bool) (ok : α → Prop) : Prop := ∀ l v, A.de r l = some v → ok v

theorem only_field {F : Form α} {r : Bool} {ok : α → Prop} (n : List Char) (h : Only F r ok) : OnlyF (field n F) r ok := by
  intro l v hv
  have hv : (match pick n l with | some (some x) => F.de r x | _ => none) = some v := hv
  split at hv
  · exact h _ _ hv
  · cases hv

theorem only_fieldOr {F : Form α} {r : Bool} {ok : α → Prop} (n : List Char) {d : α} (hd : ok d) (h : Only F r ok) : OnlyF (fieldOr n F d) r ok := by
  intro l v hv
  have hv : (match pick n l with | some (some x) => F.de r x | some none => some d | none => none) = some v := hv
  split at hv
  · exact h _ _ hv
  · injection hv with hv; exact hv ▸ hd
  · cases hv

theorem only_and {A : Fields α} {B : Fields β} {r : Bool} {okA : α → Prop} {okB : β → Prop} (hA : OnlyF A r okA) (hB : OnlyF B r okB) :
    OnlyF (A.and B) r (fun p => okA p.1 ∧ okB p.2) := by
  intro l p h
  unfold Fields.and at h
  dsimp only at h
  split at h
  · rename_i h1 h2
    injection h with h
    subst h
    exact ⟨hA _ _ h1, hB _ _ h2⟩
  · cases h

theorem only_as {A : Fields α} {r : Bool} {ok : α → Prop} {okB : β → Prop} {f : α → β} {g : β → α} (hA : OnlyF A r ok)
    (h : ∀ a, ok a → okB (f a)) : OnlyF (A.as f g) r okB := by
  intro l b hb
  have hb : (A.de r l).map f = some b := hb
  obtain ⟨a, h1, h2⟩ := Option.map_eq_some_iff.1 hb
  subst h2
  exact h a (hA _ _ h1)

theorem only_struct {A : Fields α} {r : Bool} {ok : α → Prop} (h : OnlyF A r ok) : Only (struct A) r ok := by
  intro x v hv
  unfold struct at hv
  dsimp only at hv
  split at hv
  · split at hv
    · exact h _ _ hv
    · cases hv
  · cases hv

theorem solid_nat (r : Bool) (max : Nat) : Solid (nat max) r := fun v h => by cases h

theorem solid_splitDepth (r : Bool) : Solid splitDepth r := fun v h => by cases h

theorem solid_hash (r : Bool) : Solid hash r := fun v h => by cases r <;> cases h

theorem solid_extAddr : Solid extAddr true := fun v h => by cases h

end
end Form
end Verif
