import Verif.DictModWalk
/-
Bulk modification (`dict/ops/modify.rs`): seeking a key and applying one modification. Lemmas for C28.
-/
set_option linter.unusedVariables false
set_option linter.unusedSimpArgs false
namespace Verif

open Piece (PartOf labelEnd)

theorem before_asymm {p q : Bits} (h : Before p q) (h' : Before q p) : False := Before.irrefl _ (h.trans h')

/-- What a seek finds. -/
def SeekIs (r : Seek) (f : Frame) (K : Bits) : Prop :=
  match r with
  | .found => K = f.p ++ f.t.label ∧ f.state = -1 ∧ ∃ l e v, f.t = .leaf l e v
  | .notFound k => K = f.p ++ k ∧ ¬ f.p ++ f.t.label <+: K

/-- `do_seek` -/
theorem doSeek_spec (cmp : Comparator) (acc : Cell → Bool) {n : Nat} (hn : n ≤ 1023) {K : Bits} (hK : K.length = n) (rm : Bool) :
    ∀ (fuel : Nat) (f : Frame) (rest : List Frame) (em : List Piece) (k : Bits), k.length < fuel → K = f.p ++ k →
    Walk cmp acc n em (f :: rest) → Cov em f.flatten f → Ready f K → Closed em (fun y => rm = false ∧ Sib y.q K) → (∀ y ∈ em, Before y.q K) →
    ∃ G f' rest' r, (∀ st, doSeek cmp acc rm fuel ((f :: rest).map (Frame.item n)) k st =
        (addPieces cmp acc n G st >>= fun st' => .ok (r, (f' :: rest').map (Frame.item n), st'))) ∧
      Walk cmp acc n (em ++ G) (f' :: rest') ∧ Cov (em ++ G) f'.flatten f' ∧ Ready f' K ∧ f'.p <+: K ∧ SeekIs r f' K ∧
      Closed (em ++ G) (fun y => rm = false ∧ Sib y.q K) ∧ (∀ y ∈ em ++ G, Before y.q K) ∧ ∀ k, total (em ++ G) (f' :: rest') k = total em (f :: rest) k := by
  intro fuel
  induction fuel with
  | zero => intro f rest em k h; omega
  | succ fuel ih =>
    intro f rest em k hfuel hKk hw hcov hready hcl hb
    have hpart := hw.chain.top
    have hlen : k.length = n - f.p.length := by
      have := congrArg List.length hKk
      rw [List.length_append] at this
      omega
    have hpre : f.p <+: K := ⟨k, hKk.symm⟩
    have hun : ∀ st, doSeek cmp acc rm (fuel + 1) ((f :: rest).map (Frame.item n)) k st = (match stripPrefix f.t.label k with
        | none => .ok (.notFound k, (f :: rest).map (Frame.item n), st)
        | some [] => .ok (.found, (f :: rest).map (Frame.item n), st)
        | some (bit :: key') => match f.t.cell.refs[bit.toNat]? with
          | none => .error .cellUnderflow
          | some child => (f.item n).addSubtrees cmp acc ((bit.toNat : Int) - 1) rm st >>= fun st =>
            IItem.load (f.p ++ f.t.label ++ [bit]) key'.length child >>= fun it' =>
            doSeek cmp acc rm fuel (it' :: { f.item n with state := bit.toNat } :: rest.map (Frame.item n)) key' st) := fun st => rfl
    cases hs : stripPrefix f.t.label k with
    | none =>
      rw [hs] at hun
      refine ⟨[], f, rest, .notFound k, fun st => hun st, ?_⟩
      simp only [List.append_nil]
      refine ⟨hw, hcov, hready, hpre, ⟨hKk, ?_⟩, hcl, hb, by intros; trivial⟩
      rintro ⟨r, hr⟩
      rw [hKk, List.append_assoc, List.append_cancel_left_eq] at hr
      rw [← hr, stripPrefix_append] at hs
      cases hs
    | some r =>
      have hk := stripPrefix_some.mp hs
      cases r with
      | nil =>
        rw [List.append_nil] at hk
        rw [hs] at hun
        have hKP : K = f.p ++ f.t.label := by rw [hKk, hk]
        have hleaf : ∃ l e v, f.t = .leaf l e v := by
          cases ht : f.t with
          | leaf l e v => exact ⟨l, e, v, rfl⟩
          | fork l e x a b =>
            rw [ht] at hpart hk
            have h1 : l.length < n - f.p.length := hpart.sized.1
            have h2 : k.length = l.length := congrArg List.length hk
            omega
        have hst : f.state = -1 := by
          rcases hready with h | ⟨l, e, x, a, b, bit, h1, _⟩ | ⟨_, h⟩
          · exact h
          · obtain ⟨l', e', v', h'⟩ := hleaf
            rw [h'] at h1; cases h1
          · rw [← hKP] at h
            exact absurd h (Before.irrefl _)
        refine ⟨[], f, rest, .found, fun st => hun st, ?_⟩
        simp only [List.append_nil]
        exact ⟨hw, hcov, hready, hpre, ⟨hKP, hst, hleaf⟩, hcl, hb, by intros; trivial⟩
      | cons bit key' =>
        have hfork : ∃ l e x a b, f.t = .fork l e x a b := by
          cases ht : f.t with
          | fork l e x a b => exact ⟨l, e, x, a, b, rfl⟩
          | leaf l e v =>
            rw [ht] at hpart hk
            have h1 : l.length = n - f.p.length := hpart.sized.1
            have h2 := congrArg List.length hk
            rw [List.length_append] at h2
            have h2 : k.length = l.length + (key'.length + 1) := h2
            omega
        obtain ⟨l, e, x, a, b, ht⟩ := hfork
        rw [hs] at hun
        dsimp only at hun
        have hlab : f.t.label = l := by rw [ht]; rfl
        rw [hlab] at hk hun
        have hpart' := hpart
        rw [ht] at hpart'
        have hchild := hpart'.branch bit
        have hKb : K = (f.p ++ l ++ [bit]) ++ key' := by rw [hKk, hk]; simp
        have hkl : key'.length = n - (f.p ++ l ++ [bit]).length := by
          have := congrArg List.length hKb
          rw [List.length_append] at this
          omega
        have hcell : f.t.cell.refs[bit.toNat]? = some (if bit then b else a).cell := by
          rw [ht]; cases bit <;> rfl
        -- the state is fresh, or the left branch is done and the key goes right
        have hcase : f.state = -1 ∨ (f.state = 0 ∧ bit = true) := by
          rcases hready with h | ⟨l', e', x', a', b', bit', h1, h2, h3⟩ | ⟨_, h⟩
          · exact Or.inl h
          · rw [ht] at h1
            injection h1 with i1
            subst i1
            cases bit' with
            | false =>
              refine Or.inr ⟨h2, ?_⟩
              cases bit with
              | true => rfl
              | false => exact (h3.not_prefix (k := K) ⟨key', hKb.symm⟩ (List.prefix_refl _)).elim
            | true =>
              exfalso
              cases bit with
              | true => exact h3.not_prefix (k := K) ⟨key', hKb.symm⟩ (List.prefix_refl _)
              | false =>
                refine before_asymm h3 ?_
                rw [hKb, List.append_assoc]
                exact before_siblings (f.p ++ l) key' []
          · rw [hlab] at h
            exact (h.not_prefix (k := K) ⟨bit :: key', by rw [hKb]; simp⟩ (List.prefix_refl _)).elim
        let G0 : List Piece := if bit ∧ f.state < 0 then [(Pend.sub (f.p ++ l ++ [false]) a).piece (rm || f.flatten)] else []
        have hcode : ∀ st, doSeek cmp acc rm (fuel + 1) ((f :: rest).map (Frame.item n)) k st = (addPieces cmp acc n G0 st >>= fun st =>
            doSeek cmp acc rm fuel (((⟨f.p ++ l ++ [bit], if bit then b else a, -1, false⟩ : Frame) :: { f with state := bit.toNat } :: rest).map (Frame.item n)) key' st) := by
          intro st
          rw [hun, hcell]
          dsimp only
          rw [addSubtrees_left cmp acc ht hpart]
          show (addPieces cmp acc n G0 st >>= _) = _
          cases addPieces cmp acc n G0 st with
          | error e => rfl
          | ok st' =>
            show (IItem.load (f.p ++ l ++ [bit]) key'.length (if bit then b else a).cell >>= _) = _
            rw [hkl, load_item cmp acc hn hchild]
            rfl
        have hpend : f.pend = (if f.state < 0 then [.sub (f.p ++ l ++ [false]) a] else []) ++ (if f.state < 1 then [.sub (f.p ++ l ++ [true]) b] else []) := by
          unfold Frame.pend; rw [ht]
        have hG0 : ∀ y ∈ G0, bit = true ∧ f.state = -1 ∧ y = (Pend.sub (f.p ++ l ++ [false]) a).piece (rm || f.flatten) := by
          intro y hy
          show _
          by_cases hc : bit ∧ f.state < 0
          · have : y ∈ [(Pend.sub (f.p ++ l ++ [false]) a).piece (rm || f.flatten)] := by
              have hy' : y ∈ (if bit ∧ f.state < 0 then [(Pend.sub (f.p ++ l ++ [false]) a).piece (rm || f.flatten)] else []) := hy
              rw [if_pos hc] at hy'; exact hy'
            refine ⟨hc.1, ?_, List.mem_singleton.mp this⟩
            rcases hcase with h | ⟨h, _⟩
            · exact h
            · have := hc.2; omega
          · have hy' : y ∈ (if bit ∧ f.state < 0 then [(Pend.sub (f.p ++ l ++ [false]) a).piece (rm || f.flatten)] else []) := hy
            rw [if_neg hc] at hy'; cases hy'
        have hq0 : ∀ fl, f.p ++ l ++ [false] <+: ((Pend.sub (f.p ++ l ++ [false]) a).piece fl).q := fun fl => Pend.piece_q fl (.sub (f.p ++ l ++ [false]) a)
        -- the branch on the way is among what is left
        have hbit : Pend.sub (f.p ++ l ++ [bit]) (if bit then b else a) ∈ f.pend := by
          rw [hpend]
          rcases hcase with h | ⟨h, rfl⟩
          · rw [h]; cases bit <;> simp
          · rw [h]; simp
        let c : Frame := ⟨f.p ++ l ++ [bit], if bit then b else a, -1, false⟩
        let g : Frame := { f with state := bit.toNat }
        have hgp : g.pend = if bit then [] else [.sub (f.p ++ l ++ [true]) b] := by
          show Frame.pend { f with state := bit.toNat } = _
          unfold Frame.pend
          dsimp only
          rw [ht]
          cases bit <;> simp
        have hgsub : ∀ z ∈ g.pend, z ∈ f.pend := by
          intro z hz
          rw [hgp] at hz
          cases bit with
          | true => simp at hz
          | false =>
            have hz : z = .sub (f.p ++ l ++ [true]) b := by simpa using hz
            rw [hpend, hz]
            rcases hcase with h | ⟨_, h⟩
            · rw [h]; simp
            · cases h
        have hchain : Chain cmp acc n (c :: g :: rest) := .step (g := g) ht rfl rfl rfl (hw.chain.set rfl rfl)
        have hw' : Walk cmp acc n (em ++ G0) (c :: g :: rest) := by
          refine ⟨?_, ?_, ?_, hchain⟩
          · intro y hy
            rcases List.mem_append.mp hy with hy | hy
            · exact hw.ok y hy
            · obtain ⟨_, _, rfl⟩ := hG0 y hy
              exact Pend.piece_ok _ (z := .sub (f.p ++ l ++ [false]) a) (hpart'.branch false)
          · refine List.pairwise_append.mpr ⟨hw.pw, ?_, ?_⟩
            · show List.Pairwise _ (if bit ∧ f.state < 0 then [(Pend.sub (f.p ++ l ++ [false]) a).piece (rm || f.flatten)] else [])
              split
              · exact List.pairwise_singleton _ _
              · exact List.Pairwise.nil
            · intro y hy y' hy'
              obtain ⟨_, h1, rfl⟩ := hG0 y' hy'
              refine (hw.before y hy (.sub (f.p ++ l ++ [false]) a) ?_).ext (List.prefix_refl _) (hq0 _)
              refine List.mem_append.mpr (Or.inl ?_)
              rw [hpend, h1]; simp
          · intro y hy z hz
            rw [pendAll_cons] at hz
            have hyz : Before y.q (f.p ++ l ++ [bit]) ∧ ∀ z ∈ pendAll (g :: rest), Before y.q z.at_ := by
              rcases List.mem_append.mp hy with hy | hy
              · refine ⟨hw.before y hy _ (List.mem_append.mpr (Or.inl hbit)), fun z hz => ?_⟩
                rw [pendAll_cons] at hz
                rcases List.mem_append.mp hz with hz | hz
                · exact hw.before y hy z (List.mem_append.mpr (Or.inl (hgsub z hz)))
                · exact hw.before y hy z (List.mem_append.mpr (Or.inr hz))
              · obtain ⟨h1, h2, rfl⟩ := hG0 y hy
                subst h1
                refine ⟨(before_siblings (f.p ++ l) [] []).ext (hq0 _) (List.prefix_refl _), fun z hz => ?_⟩
                rw [pendAll_cons, hgp] at hz
                exact hw.chain.after (prefix_mid.trans (hq0 _)) hz
            rcases List.mem_append.mp hz with hz | hz
            · exact hyz.1.ext (List.prefix_refl _) ((List.prefix_append _ _).trans (pend_prefix hz))
            · exact hyz.2 z hz
        have hb' : ∀ y ∈ em ++ G0, Before y.q K := by
          intro y hy
          rcases List.mem_append.mp hy with hy | hy
          · exact hb y hy
          · obtain ⟨h1, h2, rfl⟩ := hG0 y hy
            subst h1
            exact (before_siblings (f.p ++ l) [] []).ext (hq0 _) ⟨key', hKb.symm⟩
        have hcl' : Closed (em ++ G0) (fun y => rm = false ∧ Sib y.q K) := by
          intro y hy hr
          rcases List.mem_append.mp hy with hy | hy
          · rcases hcl y hy hr with ⟨z, hz, hs⟩ | hh
            · exact Or.inl ⟨z, List.mem_append.mpr (Or.inl hz), hs⟩
            · exact Or.inr hh
          · obtain ⟨h1, h2, rfl⟩ := hG0 y hy
            right
            cases hfl : (rm || f.flatten) with
            | true => rw [hfl] at hr; exact hr.elim
            | false =>
              rw [Bool.or_eq_false_iff] at hfl
              refine ⟨hfl.1, f.p ++ l, false, rfl, ?_⟩
              subst h1
              exact ⟨key', hKb.symm⟩
        have htot : ∀ k, total (em ++ G0) (c :: g :: rest) k = total em (f :: rest) k := by
          intro k
          have hcl : pendLook c.pend k = lk (f.p ++ l ++ [bit]) (if bit then b else a) k := pendLook_new _ _ _ _
          show (piecesLook (em ++ G0) k <|> pendLook (pendAll (c :: g :: rest)) k) = (piecesLook em k <|> pendLook (pendAll (f :: rest)) k)
          rw [pendAll_cons, pendAll_cons, pendAll_cons, pendLook_append, pendLook_append, pendLook_append, hcl, piecesLook_append, hgp, hpend]
          show ((_ <|> piecesLook (if bit ∧ f.state < 0 then [(Pend.sub (f.p ++ l ++ [false]) a).piece (rm || f.flatten)] else []) k) <|> _) = _
          have hone : ∀ z : Pend, pendLook [z] k = z.look k := fun z => List.findSome?_singleton
          have hone' : ∀ z : Piece, piecesLook [z] k = z.look k := fun z => List.findSome?_singleton
          have hnil : pendLook [] k = none := rfl
          have hnil' : piecesLook [] k = none := rfl
          have hl0 : (Pend.sub (f.p ++ l ++ [false]) a).look k = lk (f.p ++ l ++ [false]) a k := rfl
          have hl1 : (Pend.sub (f.p ++ l ++ [true]) b).look k = lk (f.p ++ l ++ [true]) b k := rfl
          rcases hcase with h | ⟨h, rfl⟩
          · rw [h]
            cases bit with
            | false =>
              rw [if_neg (by simp), if_neg (by simp), if_neg (by simp), if_pos (by decide), if_pos (by decide), hnil', pendLook_append, hone, hone, hl0, hl1]
              generalize lk (f.p ++ l ++ [false]) a k = o1
              generalize lk (f.p ++ l ++ [true]) b k = o2
              generalize piecesLook em k = o3
              cases o3 <;> cases o1 <;> rfl
            | true =>
              rw [if_pos (by simp), if_pos (by simp), if_pos (by simp), if_pos (by decide), if_pos (by decide), hnil, hone', pendLook_append, hone, hone, Pend.piece_look, hl0, hl1]
              generalize lk (f.p ++ l ++ [false]) a k = o1
              generalize lk (f.p ++ l ++ [true]) b k = o2
              generalize piecesLook em k = o3
              cases o3 <;> cases o1 <;> cases o2 <;> rfl
          · rw [h, if_neg (by simp), if_pos rfl, if_pos rfl, if_neg (by decide), if_pos (by decide), hnil, hnil', pendLook_append, hnil, hone, hl1]
            generalize lk (f.p ++ l ++ [true]) b k = o2
            generalize piecesLook em k = o3
            cases o3 <;> cases o2 <;> rfl
        obtain ⟨G, f', rest', r, i1, i2, i3, i4, i5, i6, i7, i8, i9⟩ := ih c (g :: rest) (em ++ G0) key' (by
            rw [hk, List.length_append] at hfuel
            have hfuel : l.length + (key'.length + 1) < fuel + 1 := hfuel
            omega) hKb hw' (Or.inl rfl) (Or.inl rfl) hcl' hb'
        rw [List.append_assoc] at i2 i3 i7 i8 i9
        refine ⟨G0 ++ G, f', rest', r, fun st => ?_, i2, i3, i4, i5, i6, i7, i8, fun k => by rw [i9 k, htot k]⟩
        rw [hcode, addPieces_append]
        cases addPieces cmp acc n G0 st with
        | error e => rfl
        | ok st' => exact i1 st'

/-! ### Applying a modification -/

def vPieces (K : Bits) : Option Sl → List Piece
  | none => []
  | some v => [.leaf K v]

theorem addValue_eq (cmp : Comparator) (acc : Cell → Bool) (n : Nat) (K : Bits) (v : Option Sl) (st : List MItem) :
    addValue cmp acc st K v = addPieces cmp acc n (vPieces K v) st := by
  cases v with
  | none => rfl
  | some v =>
    show _ = (addValue cmp acc st K (some v) >>= fun st => .ok st)
    cases addValue cmp acc st K (some v) <;> rfl

theorem lexBits_part (c : Bits) (b : Bool) (x y : Bits) : lexBits (c ++ b :: x) (c ++ (!b) :: y) = if b then .gt else .lt := by
  induction c with
  | nil => cases b <;> rfl
  | cons z c ih =>
    show (if z = z then _ else _) = _
    rw [if_pos rfl]; exact ih

/-- The walk after the seek of a key. -/
structure Sought (cmp : Comparator) (acc : Cell → Bool) (n : Nat) (em : List Piece) (f : Frame) (rest : List Frame) (K : Bits) (rm : Bool) (r : Seek) : Prop where
  walk : Walk cmp acc n em (f :: rest)
  cov : Cov em f.flatten f
  ready : Ready f K
  pre : f.p <+: K
  is_ : SeekIs r f K
  closed : Closed em (fun y => rm = false ∧ Sib y.q K)
  before : ∀ y ∈ em, Before y.q K

/-- Where the top item stands relative to the last key. -/
def Bound (f : Frame) (K : Bits) : Prop :=
  (f.state = -1 ∧ Before K (f.p ++ f.t.label)) ∨ (f.state = 2 ∧ (f.p ++ f.t.label = K ∨ Before (f.p ++ f.t.label) K))

/-- The walk after a key has been handled. -/
structure AtKey (cmp : Comparator) (acc : Cell → Bool) (n : Nat) (em : List Piece) (f : Frame) (rest : List Frame) (K : Bits) : Prop where
  walk : Walk cmp acc n em (f :: rest)
  cov : Cov em false f
  pre : f.p <+: K
  bound : Bound f K
  closed : Closed em (fun _ => False)
  upto : ∀ y ∈ em, y.q = K ∨ Before y.q K

/-- A key between what is emitted and what is left. -/
theorem total_add {em : List Piece} {fs : List Frame} {K : Bits} (hem : ∀ y ∈ em, Before y.q K) (hz : ∀ z ∈ pendAll fs, Before K z.at_) (v : Option Sl) (k : Bits) :
    total (em ++ vPieces K v) fs k = if k = K then v else total em fs k := by
  unfold total
  rw [piecesLook_append]
  have hv : piecesLook (vPieces K v) k = if k = K then v else none := by
    cases v with
    | none => show none = _; split <;> rfl
    | some v => exact List.findSome?_singleton
  rw [hv]
  by_cases hk : k = K
  · subst hk
    rw [if_pos rfl, if_pos rfl]
    have h1 : piecesLook em k = none := by
      refine List.findSome?_eq_none_iff.mpr fun y hy => ?_
      cases hl : y.look k with
      | none => rfl
      | some w => exact ((hem y hy).not_prefix (Piece.look_prefix (by rw [hl]; rfl)) (List.prefix_refl _)).elim
    have h2 : pendLook (pendAll fs) k = none := by
      refine List.findSome?_eq_none_iff.mpr fun z hz' => ?_
      cases hl : z.look k with
      | none => rfl
      | some w => exact ((hz z hz').not_prefix (List.prefix_refl _) (Pend.look_prefix (by rw [hl]; rfl))).elim
    rw [h1, h2]
    cases v <;> rfl
  · rw [if_neg hk, if_neg hk]
    cases piecesLook em k <;> rfl

/-- Adding the value keeps the walk in order. -/
theorem addV (cmp : Comparator) (acc : Cell → Bool) {n : Nat} {K : Bits} (hK : K.length = n) {em : List Piece} {f : Frame} {rest : List Frame} {v : Option Sl}
    (hw : Walk cmp acc n em (f :: rest)) (hcl : Closed em (fun y => v.isNone = false ∧ Sib y.q K)) (hem : ∀ y ∈ em, Before y.q K)
    (hz : ∀ z ∈ pendAll (f :: rest), Before K z.at_) :
    Walk cmp acc n (em ++ vPieces K v) (f :: rest) ∧ Closed (em ++ vPieces K v) (fun _ => False) ∧ (∀ y ∈ em ++ vPieces K v, y.q = K ∨ Before y.q K) := by
  have hmem : ∀ y ∈ vPieces K v, ∃ w, v = some w ∧ y = .leaf K w := by
    intro y hy
    cases v with
    | none => cases hy
    | some w => exact ⟨w, rfl, List.mem_singleton.mp hy⟩
  refine ⟨⟨?_, ?_, ?_, hw.chain⟩, ?_, ?_⟩
  · intro y hy
    rcases List.mem_append.mp hy with hy | hy
    · exact hw.ok y hy
    · obtain ⟨w, _, rfl⟩ := hmem y hy
      exact hK
  · refine List.pairwise_append.mpr ⟨hw.pw, ?_, ?_⟩
    · cases v with
      | none => exact List.Pairwise.nil
      | some w => exact List.pairwise_singleton _ _
    · intro y hy y' hy'
      obtain ⟨w, _, rfl⟩ := hmem y' hy'
      exact hem y hy
  · intro y hy z hz'
    rcases List.mem_append.mp hy with hy | hy
    · exact hw.before y hy z hz'
    · obtain ⟨w, _, rfl⟩ := hmem y hy
      exact hz z hz'
  · intro y hy hr
    left
    rcases List.mem_append.mp hy with hy | hy
    · rcases hcl y hy hr with ⟨z, hz, hs⟩ | ⟨h, hs⟩
      · exact ⟨z, List.mem_append.mpr (Or.inl hz), hs⟩
      · cases v with
        | none => cases h
        | some w => exact ⟨.leaf K w, List.mem_append.mpr (Or.inr (List.mem_singleton.mpr rfl)), hs⟩
    · obtain ⟨w, _, rfl⟩ := hmem y hy
      exact hr.elim
  · intro y hy
    rcases List.mem_append.mp hy with hy | hy
    · exact Or.inr (hem y hy)
    · obtain ⟨w, _, rfl⟩ := hmem y hy
      exact Or.inl rfl

theorem modApply_spec (cmp : Comparator) (acc : Cell → Bool) {n : Nat} (hn : n ≤ 1023) {K : Bits} (hK : K.length = n) {em : List Piece} {f : Frame} {rest : List Frame}
    {v : Option Sl} {r : Seek} (h : Sought cmp acc n em f rest K v.isNone r) :
    ∃ G f', (∀ st, modApply cmp acc K v (r, (f :: rest).map (Frame.item n), st) =
        (addPieces cmp acc n G st >>= fun st' => .ok ((f' :: rest).map (Frame.item n), st'))) ∧
      AtKey cmp acc n (em ++ G) f' rest K ∧ ∀ k, k.length = n → total (em ++ G) (f' :: rest) k = if k = K then v else total em (f :: rest) k := by
  have hpart := h.walk.chain.top
  have hrest : ∀ z ∈ pendAll rest, Before K z.at_ := fun z hz => h.walk.chain.after h.pre hz
  cases r with
  | found =>
    obtain ⟨hKP, hst, l, e, w, ht⟩ := h.is_
    let f' : Frame := { f with state := 2, flatten := f.flatten || v.isNone }
    have hp' : f'.pend = [] := pend_two rfl
    have hz : ∀ z ∈ pendAll (f' :: rest), Before K z.at_ := by
      rw [pendAll_cons, hp']; exact hrest
    have hw' : Walk cmp acc n em (f' :: rest) := by
      refine ⟨h.walk.ok, h.walk.pw, fun y hy z hz => ?_, h.walk.chain.set rfl rfl⟩
      rw [pendAll_cons, hp'] at hz
      exact h.walk.before y hy z (List.mem_append.mpr (Or.inr hz))
    obtain ⟨a1, a2, a3⟩ := addV cmp acc hK hw' h.closed h.before hz
    refine ⟨vPieces K v, f', fun st => ?_, ⟨a1, ?_, h.pre, Or.inr ⟨rfl, Or.inl hKP.symm⟩, a2, a3⟩, fun k hk => ?_⟩
    · show (addValue cmp acc st K v >>= _) = _
      rw [addValue_eq cmp acc n]
      rfl
    · refine Or.inr (Or.inl ⟨rfl, ?_⟩)
      cases v with
      | none => left; show (f.flatten || true) = true; simp
      | some w' => exact Or.inr ⟨.leaf K w', List.mem_append.mpr (Or.inr (List.mem_singleton.mpr rfl)), h.pre⟩
    · rw [total_add h.before hz]
      by_cases hkK : k = K
      · rw [if_pos hkK, if_pos hkK]
      · rw [if_neg hkK, if_neg hkK]
        unfold total
        rw [pendAll_cons, pendAll_cons, hp', List.nil_append, pendLook_append f.pend]
        have hn' : pendLook f.pend k = none := by
          have hpd : f.pend = [.raw f.p f.t] := by
            unfold Frame.pend; rw [ht]
            exact if_neg (by rw [hst]; decide)
          rw [hpd]
          show List.findSome? _ [_] = none
          rw [List.findSome?_singleton]
          cases hl : (Pend.raw f.p f.t).look k with
          | none => rfl
          | some w' =>
            exfalso
            have : f.p ++ f.t.label <+: k := Pend.look_prefix (z := .raw f.p f.t) (by rw [hl]; rfl)
            rw [← hKP] at this
            exact hkK (this.eq_of_length (by rw [hK, hk])).symm
        rw [hn']
        cases piecesLook em k <;> cases pendLook (pendAll rest) k <;> rfl
  | notFound k0 =>
    obtain ⟨hKk, hnp⟩ := h.is_
    have hk0 : k0.length = n - f.p.length := by
      have := congrArg List.length hKk
      rw [List.length_append] at this
      omega
    have hlen : f.t.label.length ≤ k0.length := by rw [hk0]; exact hpart.sized.length_le
    have hdiv : (lexBits k0 f.t.label = .gt ∧ Before (f.p ++ f.t.label) K) ∨ (lexBits k0 f.t.label = .lt ∧ Before K (f.p ++ f.t.label)) := by
      rcases diverge_cases f.t.label k0 hlen with ⟨r, hr⟩ | ⟨c, b, l', k', h1, h2⟩
      · exact (hnp ⟨r, by rw [hKk, hr, List.append_assoc]⟩).elim
      · rw [h1, hKk, h2, lexBits_part]
        cases b with
        | true => exact Or.inl ⟨rfl, by rw [← List.append_assoc, ← List.append_assoc]; exact before_siblings _ _ _⟩
        | false => exact Or.inr ⟨rfl, by rw [← List.append_assoc, ← List.append_assoc]; exact before_siblings _ _ _⟩
    have hrun : ∀ st, modApply cmp acc K v (.notFound k0, (f :: rest).map (Frame.item n), st) =
        if lexBits k0 f.t.label = .gt ∧ f.state ≠ 2 then
          ((f.item n).addSubtrees cmp acc 1 false st >>= fun st => addValue cmp acc st K v >>= fun st => .ok ({ f.item n with state := 2 } :: rest.map (Frame.item n), st))
        else (addValue cmp acc st K v >>= fun st => .ok ((f :: rest).map (Frame.item n), st)) := fun st => rfl
    by_cases hc : lexBits k0 f.t.label = .gt ∧ f.state ≠ 2
    · have hPK : Before (f.p ++ f.t.label) K := by
        rcases hdiv with h | h
        · exact h.2
        · have := h.1.symm.trans hc.1; cases this
      let f' : Frame := { f with state := 2 }
      have hp' : f'.pend = [] := pend_two rfl
      have hz : ∀ z ∈ pendAll (f' :: rest), Before K z.at_ := by
        rw [pendAll_cons, hp']; exact hrest
      obtain ⟨e1, e2, e3, e4, e5, e6⟩ := h.walk.emit (fl := f.flatten) id h.cov h.closed
      have hem' : ∀ y ∈ em ++ f.pend.map (Pend.piece f.flatten), Before y.q K := by
        intro y hy
        rcases List.mem_append.mp hy with hy | hy
        · exact h.before y hy
        · obtain ⟨z, hz, rfl⟩ := List.mem_map.mp hy
          exact hPK.ext ((pend_prefix hz).trans (Pend.piece_q _ z)) (List.prefix_refl _)
      have hw' : Walk cmp acc n (em ++ f.pend.map (Pend.piece f.flatten)) (f' :: rest) := by
        refine ⟨e1, e2, fun y hy z hz => ?_, h.walk.chain.set rfl rfl⟩
        rw [pendAll_cons, hp'] at hz
        exact e3 y hy z hz
      obtain ⟨a1, a2, a3⟩ := addV cmp acc hK hw' e4 hem' hz
      refine ⟨f.pend.map (Pend.piece f.flatten) ++ vPieces K v, f', fun st => ?_, ⟨?_, ?_, h.pre, Or.inr ⟨rfl, Or.inr hPK⟩, ?_, ?_⟩, fun k hk => ?_⟩
      · rw [hrun, if_pos hc, addSubtrees_all cmp acc hn hpart false hc.2, Bool.false_or, addPieces_append]
        cases addPieces cmp acc n (f.pend.map (Pend.piece f.flatten)) st with
        | error e => rfl
        | ok st' =>
          show (addValue cmp acc st' K v >>= _) = _
          rw [addValue_eq cmp acc n]
          rfl
      · rw [← List.append_assoc]; exact a1
      · rw [← List.append_assoc]
        refine Or.inr (Or.inl ⟨rfl, ?_⟩)
        rcases e5 with h | ⟨y, hy, hp⟩
        · exact Or.inl h
        · exact Or.inr ⟨y, List.mem_append.mpr (Or.inl hy), hp⟩
      · rw [← List.append_assoc]; exact a2
      · rw [← List.append_assoc]; exact a3
      · rw [← List.append_assoc, total_add hem' hz, ← e6 k]
        unfold total
        rw [pendAll_cons, hp']
        rfl
    · have hb : Bound f K := by
        rcases hdiv with ⟨h1, h2⟩ | ⟨h1, h2⟩
        · have h3 : f.state = 2 := Classical.byContradiction fun h3 => hc ⟨h1, h3⟩
          exact Or.inr ⟨h3, Or.inr h2⟩
        · left
          refine ⟨?_, h2⟩
          rcases h.ready with h3 | ⟨l, e, x, a, b, bit, h3, h4, h5⟩ | ⟨h3, h4⟩
          · exact h3
          · refine (before_asymm h2 ?_).elim
            exact (before_asymm h5 (h2.ext (List.prefix_refl _) ⟨[bit], by rw [h3]; rfl⟩)).elim
          · exact (before_asymm h2 h4).elim
      have hz : ∀ z ∈ pendAll (f :: rest), Before K z.at_ := by
        intro z hz
        rw [pendAll_cons] at hz
        rcases List.mem_append.mp hz with hz | hz
        · rcases hb with ⟨_, h2⟩ | ⟨h2, _⟩
          · exact h2.ext (List.prefix_refl _) (pend_prefix hz)
          · rw [pend_two h2] at hz; cases hz
        · exact hrest z hz
      obtain ⟨a1, a2, a3⟩ := addV cmp acc hK h.walk h.closed h.before hz
      refine ⟨vPieces K v, f, fun st => ?_, ⟨a1, ?_, h.pre, hb, a2, a3⟩, fun k hk => total_add h.before hz v k⟩
      · rw [hrun, if_neg hc, addValue_eq cmp acc n]
      · rcases hb with ⟨h2, _⟩ | ⟨h2, _⟩
        · exact Or.inl h2
        · rcases h.cov with h3 | ⟨h3, h4⟩ | ⟨l, e, x, a, b, bit, h3, h4, h5⟩
          · exact Or.inl h3
          · refine Or.inr (Or.inl ⟨h3, ?_⟩)
            rcases h4 with h4 | ⟨y, hy, h4⟩
            · exact Or.inl h4
            · exact Or.inr ⟨y, List.mem_append.mpr (Or.inl hy), h4⟩
          · rw [h2] at h4
            cases bit <;> cases h4

/-! ### The next key -/

theorem seekNext_spec (cmp : Comparator) (acc : Cell → Bool) {n : Nat} (hn : n ≤ 1023) {L K : Bits} (hK : K.length = n) (hLK : Before L K) {em : List Piece} {f : Frame}
    {rest : List Frame} (h : AtKey cmp acc n em f rest L) (rm : Bool) :
    ∃ G f' rest' r, (∀ st, seekNext cmp acc ((f :: rest).map (Frame.item n)) L K rm st =
        (addPieces cmp acc n G st >>= fun st' => .ok (r, (f' :: rest').map (Frame.item n), st'))) ∧
      Sought cmp acc n (em ++ G) f' rest' K rm r ∧ ∀ k, total (em ++ G) (f' :: rest') k = total em (f :: rest) k := by
  have hready : Ready f K := by
    rcases h.bound with ⟨h1, _⟩ | ⟨h1, h2 | h2⟩
    · exact Or.inl h1
    · exact Or.inr (Or.inr ⟨h1, by rw [h2]; exact hLK⟩)
    · exact Or.inr (Or.inr ⟨h1, h2.trans hLK⟩)
  have hb : ∀ y ∈ em, Before y.q K := by
    intro y hy
    rcases h.upto y hy with h1 | h1
    · rw [h1]; exact hLK
    · exact h1.trans hLK
  have hslow : ∃ G f' rest' r, (∀ st, (unwind cmp acc (commonPrefixLen L K) ((f :: rest).map (Frame.item n)) rm st K >>= fun x =>
          doSeek cmp acc rm (K.length + 1) x.1 x.2.2 x.2.1) = (addPieces cmp acc n G st >>= fun st' => .ok (r, (f' :: rest').map (Frame.item n), st'))) ∧
      Sought cmp acc n (em ++ G) f' rest' K rm r ∧ ∀ k, total (em ++ G) (f' :: rest') k = total em (f :: rest) k := by
    obtain ⟨G, f', rest', u1, u2, u3, u4, u5, u6, u7, u8⟩ := unwind_spec cmp acc hn hLK rest f em rm h.walk
      (h.cov.mono rfl rfl rfl id (fun h => by cases h) (fun y hy => hy)) hready h.pre h.closed hb
    have hKd : K = f'.p ++ K.drop f'.p.length := by
      obtain ⟨r, hr⟩ := u5
      rw [← hr, List.drop_left]
    obtain ⟨G', f'', rest'', r, i1, i2, i3, i4, i5, i6, i7, i8, i9⟩ := doSeek_spec cmp acc hn hK rm (K.length + 1) f' rest' (em ++ G) (K.drop f'.p.length)
      (by rw [List.length_drop]; omega) hKd u2 u3 u4 (fun y hy hr => (u6 y hy hr).imp id (fun h => h.elim)) u7
    rw [List.append_assoc] at i2 i3 i7 i8 i9
    refine ⟨G ++ G', f'', rest'', r, fun st => ?_, ⟨i2, i3, i4, i5, i6, i7, i8⟩, fun k => (i9 k).trans (u8 k)⟩
    rw [u1, addPieces_append]
    cases addPieces cmp acc n G st with
    | error e => rfl
    | ok st' => exact i1 st'
  cases rest with
  | cons g rest => exact hslow
  | nil =>
    by_cases h2 : f.state = 2
    · have hpb : Before (f.p ++ f.t.label) K := by
        rcases hready with h1 | ⟨l, e, x, a, b, bit, h3, h4, h5⟩ | ⟨_, h3⟩
        · rw [h2] at h1; cases h1
        · rw [h2] at h4; cases bit <;> cases h4
        · exact h3
      have hp : f.p = [] := by cases h.walk.chain with | root hp ht => exact hp
      refine ⟨[], f, [], .notFound K, fun st => ?_, ⟨?_, ?_, hready, ?_, ?_, ?_, ?_⟩, fun k => by rw [List.append_nil]⟩
      · show (if f.state = 2 then _ else _) = _
        rw [if_pos h2]
        rfl
      · rw [List.append_nil]; exact h.walk
      · rw [List.append_nil]
        rcases h.cov with h3 | h3 | ⟨l, e, x, a, b, bit, h3, h4, h5⟩
        · exact Or.inl h3
        · exact Or.inr (Or.inl h3)
        · rw [h2] at h4; cases bit <;> cases h4
      · rw [hp]; exact List.nil_prefix
      · exact ⟨by rw [hp]; rfl, fun hpre => hpb.not_prefix hpre (List.prefix_refl _)⟩
      · rw [List.append_nil]
        exact fun y hy hr => (h.closed y hy hr).imp id (fun h => h.elim)
      · rw [List.append_nil]; exact hb
    · obtain ⟨G, f', rest', r, c, x⟩ := hslow
      refine ⟨G, f', rest', r, fun st => ?_, x⟩
      rw [← c st]
      show (if f.state = 2 then _ else _) = _
      rw [if_neg h2]

/-- The modification of a key in a list; the first one counts. -/
def modOf : List (Bits × Option Sl) → Bits → Option (Option Sl)
  | [], _ => none
  | (k', v) :: es, k => if k = k' then some v else modOf es k

theorem modOf_none {es : List (Bits × Option Sl)} {k : Bits} (h : ∀ e ∈ es, e.1 ≠ k) : modOf es k = none := by
  induction es with
  | nil => rfl
  | cons e es ih =>
    show (if k = e.1 then _ else _) = none
    rw [if_neg (fun hk => h e List.mem_cons_self hk.symm)]
    exact ih fun e he => h e (List.mem_cons_of_mem _ he)

/-- The rest of the loop. -/
theorem modGo_spec (cmp : Comparator) (acc : Cell → Bool) {n : Nat} (hn : n ≤ 1023) (root : Cell) : ∀ (es : List (Bits × Option Sl)) (L : Bits) (em : List Piece) (f : Frame)
    (rest : List Frame), AtKey cmp acc n em f rest L → L.length = n → (∀ e ∈ es, e.1.length = n) → (∀ e ∈ es, lexBits L e.1 ≠ .gt) →
    es.Pairwise (fun a b => lexBits a.1 b.1 ≠ .gt) →
    ∃ G f' rest' L', (∀ st, modGo cmp acc root lexBits es (some L) ((f :: rest).map (Frame.item n)) st =
        (addPieces cmp acc n G st >>= fun st' => .ok (some L', (f' :: rest').map (Frame.item n), st'))) ∧
      AtKey cmp acc n (em ++ G) f' rest' L' ∧
      ∀ k, k.length = n → total (em ++ G) (f' :: rest') k = if k = L then total em (f :: rest) k else (modOf es k).getD (total em (f :: rest) k) := by
  intro es
  induction es with
  | nil =>
    intro L em f rest h hL hlen hle hpw
    refine ⟨[], f, rest, L, fun st => rfl, by rw [List.append_nil]; exact h, fun k hk => ?_⟩
    rw [List.append_nil]
    show _ = if k = L then _ else total em (f :: rest) k
    split <;> rfl
  | cons e es ih =>
    obtain ⟨K, v⟩ := e
    intro L em f rest h hL hlen hle hpw
    have hK : K.length = n := hlen (K, v) List.mem_cons_self
    have hlen' : ∀ e ∈ es, e.1.length = n := fun e he => hlen e (List.mem_cons_of_mem _ he)
    have hle0 : lexBits L K ≠ .gt := hle (K, v) List.mem_cons_self
    rw [List.pairwise_cons] at hpw
    have hpw1 : ∀ e ∈ es, lexBits K e.1 ≠ .gt := hpw.1
    cases hc : lexBits L K with
    | gt => exact absurd hc hle0
    | eq =>
      have hKL : K = L := ((lexBits_eq_iff (by rw [hL, hK])).mp hc).symm
      subst hKL
      obtain ⟨G, f', rest', L', c, a, t⟩ := ih K em f rest h hL hlen' hpw1 hpw.2
      refine ⟨G, f', rest', L', fun st => ?_, a, fun k hk => ?_⟩
      · rw [← c st]
        show (match some (lexBits K K) with | some .eq => _ | some .lt => _ | _ => _) = _
        rw [lexBits_refl]
      · rw [t k hk]
        by_cases hkK : k = K
        · rw [if_pos hkK, if_pos hkK]
        · rw [if_neg hkK, if_neg hkK]
          show _ = Option.getD (if k = K then _ else _) _
          rw [if_neg hkK]
    | lt =>
      have hLK := before_of_lt (by rw [hL, hK]) hc
      have hgt : lexBits K L = .gt := by rw [← lexBits_swap, hc]; rfl
      obtain ⟨G1, f1, rest1, r, c1, s1, t1⟩ := seekNext_spec cmp acc hn hK hLK h v.isNone
      obtain ⟨G2, f2, c2, a2, t2⟩ := modApply_spec cmp acc hn hK s1
      obtain ⟨G3, f3, rest3, L3, c3, a3, t3⟩ := ih K _ f2 rest1 a2 hK hlen' hpw1 hpw.2
      refine ⟨G1 ++ (G2 ++ G3), f3, rest3, L3, fun st => ?_, ?_, fun k hk => ?_⟩
      · have hrun : modGo cmp acc root lexBits ((K, v) :: es) (some L) ((f :: rest).map (Frame.item n)) st = (match some (lexBits K L) with
            | some .eq => modGo cmp acc root lexBits es (some L) ((f :: rest).map (Frame.item n)) st
            | some .lt => .error .invalidData
            | _ => seekNext cmp acc ((f :: rest).map (Frame.item n)) L K v.isNone st >>= fun r => modApply cmp acc K v r >>= fun x =>
              modGo cmp acc root lexBits es (some K) x.1 x.2) := rfl
        rw [hrun, hgt]
        dsimp only
        rw [c1 st, addPieces_append]
        cases addPieces cmp acc n G1 st with
        | error e => rfl
        | ok st1 =>
          show (modApply cmp acc K v (r, (f1 :: rest1).map (Frame.item n), st1) >>= _) = (addPieces cmp acc n (G2 ++ G3) st1 >>= _)
          rw [c2 st1, addPieces_append]
          cases addPieces cmp acc n G2 st1 with
          | error e => rfl
          | ok st2 => exact c3 st2
      · rw [← List.append_assoc, ← List.append_assoc]; exact a3
      · rw [← List.append_assoc, ← List.append_assoc, t3 k hk, t2 k hk, t1 k]
        show _ = if k = L then _ else Option.getD (if k = K then _ else _) _
        by_cases hkL : k = L
        · have hkK : k ≠ K := by
            rintro rfl
            rw [hkL, lexBits_refl] at hc
            cases hc
          rw [if_neg hkK, if_neg hkK, if_pos hkL, modOf_none]
          · rfl
          · intro e he hek
            have := hpw1 e he
            rw [hek, hkL, hgt] at this
            exact this rfl
        · rw [if_neg hkL]
          by_cases hkK : k = K
          · rw [if_pos hkK, if_pos hkK, if_pos hkK]; rfl
          · rw [if_neg hkK, if_neg hkK, if_neg hkK]

/-- A refused order. -/
theorem modGo_unsorted (cmp : Comparator) (acc : Cell → Bool) {n : Nat} (root : Cell) : ∀ (es : List (Bits × Option Sl)) (L : Bits) (its : List IItem) (st : List MItem),
    L.length = n → (∀ e ∈ es, e.1.length = n) → ¬ ((∀ e ∈ es, lexBits L e.1 ≠ .gt) ∧ es.Pairwise (fun a b => lexBits a.1 b.1 ≠ .gt)) →
    ∃ e, modGo cmp acc root lexBits es (some L) its st = .error e := by
  intro es
  induction es with
  | nil => intro L its st _ _ h; exact absurd ⟨fun e he => (by cases he), List.Pairwise.nil⟩ h
  | cons e es ih =>
    obtain ⟨K, v⟩ := e
    intro L its st hL hlen h
    have hK : K.length = n := hlen (K, v) List.mem_cons_self
    have hlen' : ∀ e ∈ es, e.1.length = n := fun e he => hlen e (List.mem_cons_of_mem _ he)
    have hrun : modGo cmp acc root lexBits ((K, v) :: es) (some L) its st = (match some (lexBits K L) with
        | some .eq => modGo cmp acc root lexBits es (some L) its st
        | some .lt => .error .invalidData
        | _ => seekNext cmp acc its L K v.isNone st >>= fun r => modApply cmp acc K v r >>= fun x => modGo cmp acc root lexBits es (some K) x.1 x.2) := rfl
    rw [hrun]
    cases hc : lexBits K L with
    | lt => exact ⟨_, rfl⟩
    | eq =>
      have hKL : K = L := (lexBits_eq_iff (by rw [hL, hK])).mp hc
      subst hKL
      refine ih K its st hL hlen' fun h' => h ⟨?_, List.pairwise_cons.mpr h'⟩
      intro e he
      rcases List.mem_cons.mp he with rfl | he
      · rw [lexBits_refl]; decide
      · exact h'.1 e he
    | gt =>
      have hlt : lexBits L K = .lt := by rw [← lexBits_swap, hc]; rfl
      have hLK := before_of_lt (by rw [hL, hK]) hlt
      have hno : ¬ ((∀ e ∈ es, lexBits K e.1 ≠ .gt) ∧ es.Pairwise (fun a b => lexBits a.1 b.1 ≠ .gt)) := by
        intro h'
        refine h ⟨?_, List.pairwise_cons.mpr h'⟩
        intro e he
        rcases List.mem_cons.mp he with rfl | he
        · rw [hlt]; decide
        · intro hgt
          have hel : e.1.length = n := hlen' e he
          have h1 : lexBits e.1 L = .lt := by rw [← lexBits_swap, hgt]; rfl
          have h2 := (before_of_lt (by rw [hL, hel]) h1).trans hLK
          have h3 := h'.1 e he
          cases hke : lexBits K e.1 with
          | gt => exact h3 hke
          | lt => exact before_asymm h2 (before_of_lt (by rw [hK, hel]) hke)
          | eq =>
            rw [(lexBits_eq_iff (by rw [hK, hel])).mp hke] at h2
            exact Before.irrefl _ h2
      show ∃ e, (seekNext cmp acc its L K v.isNone st >>= fun r => modApply cmp acc K v r >>= fun x => modGo cmp acc root lexBits es (some K) x.1 x.2) = .error e
      cases seekNext cmp acc its L K v.isNone st with
      | error e => exact ⟨e, rfl⟩
      | ok r =>
        show ∃ e, (modApply cmp acc K v r >>= fun x => modGo cmp acc root lexBits es (some K) x.1 x.2) = .error e
        cases modApply cmp acc K v r with
        | error e => exact ⟨e, rfl⟩
        | ok x => exact ih K x.1 x.2 hK hlen' hno

end Verif
