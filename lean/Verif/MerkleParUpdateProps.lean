import Verif.MerkleParUpdate
import Verif.MerkleParProps
import Verif.MerkleUpdateProps
/-
The multithreaded builder of Merkle updates makes the update of the single-threaded one.
-/
set_option linter.unusedVariables false
set_option linter.unusedSimpArgs false
namespace Verif
namespace Merkle
namespace Par
open Boc (Below Clash below_apart)

/-! ### Without a scope -/

mutual
theorem parNew_alone (f : Filter) (P split : List Hash) : ∀ (c : CCell) (skip : Bool) (m : Main), parNew f P split false c skip m =
    (.immediate (fillNew f P c skip ⟨m.visited, m.changed⟩).1, ⟨(fillNew f P c skip ⟨m.visited, m.changed⟩).2.visited,
      (fillNew f P c skip ⟨m.visited, m.changed⟩).2.changed, m.jobs⟩)
  | .mk desc bitLen data refs hashes, skip, m => by
    rw [parNew, fillNew]
    dsimp only
    generalize (CCell.mk desc bitLen data refs hashes).reprHash = h
    cases he : (enters f h skip).1 with
    | false => simp [record]
    | true =>
      rw [if_pos rfl, if_neg (by simp), if_pos rfl, parKids_alone f P split refs _ false m]
      generalize fillKids f P refs (enters f h skip).2 ⟨m.visited, m.changed⟩ = out
      obtain ⟨b, r⟩ := out
      cases b <;> simp [Kids.finish, mark, record]
theorem parKids_alone (f : Filter) (P split : List Hash) : ∀ (cs : List CCell) (skip b : Bool) (m : Main), parKids f P split false cs skip (.flag b) m =
    (.flag (b || (fillKids f P cs skip ⟨m.visited, m.changed⟩).1), ⟨(fillKids f P cs skip ⟨m.visited, m.changed⟩).2.visited,
      (fillKids f P cs skip ⟨m.visited, m.changed⟩).2.changed, m.jobs⟩)
  | [], skip, b, m => by simp [parKids, fillKids]
  | c :: cs, skip, b, m => by
    rw [parKids, fillKids]
    have h := parNew_alone f P split c skip m
    generalize fillNew f P c skip ⟨m.visited, m.changed⟩ = out at *
    rw [h]
    have hs : seen c m (.immediate out.1, ⟨out.2.visited, out.2.changed, m.jobs⟩) =
        (.immediate (fillWith c ⟨m.visited, m.changed⟩ out).1, ⟨(fillWith c ⟨m.visited, m.changed⟩ out).2.visited, (fillWith c ⟨m.visited, m.changed⟩ out).2.changed, m.jobs⟩) := by
      unfold seen fillWith
      dsimp only
      cases find m.visited c.reprHash <;> rfl
    rw [hs]
    generalize fillWith c ⟨m.visited, m.changed⟩ out = o
    obtain ⟨a, r⟩ := o
    dsimp only
    rw [Kids.add, parKids_alone f P split cs skip (b || a) ⟨r.visited, r.changed, m.jobs⟩, Bool.or_assoc]
end

/-! ### Answers -/

/-- What an answer of `fill_impl` for the cell `t` means, when the changed cells are `S` and there are tasks for the hashes in `J`. -/
inductive Ans (H : Hasher) (f : Filter) (P : List Hash) (root : CCell) (S : List Hash) (J : Hash → Prop) : Cell → Check → Prop
  | imm {t : Cell} {b : Bool} (hb : b = true ↔ Holds H f P t) (hc : ∀ x, Reach H f t x → Changed H f P x → x.reprHash H ∈ S) : Ans H f P root S J t (.immediate b)
  | deferred {c : CCell} (hb : Below [root] c) (hj : J c.reprHash) : Ans H f P root S J c.tree (.deferred c.reprHash)
  | parts {t : Cell} {us vs : List Cell} {b p : Bool} {its : List Check} (ht : t.refs = us ++ vs) (hf : f (t.reprHash H) ≠ .skip)
      (hp : p = true ↔ t.reprHash H ∈ P) (hb : b = true ↔ ∃ u ∈ us, Holds H f P u)
      (hc : ∀ u ∈ us, ∀ x, Reach H f u x → Changed H f P x → x.reprHash H ∈ S) (hl : vs.length = its.length)
      (hi : ∀ q ∈ vs.zip its, Ans H f P root S J q.1 q.2) : Ans H f P root S J t (.parts (t.reprHash H) (.immediate b :: its) p)

theorem Ans.mono {H : Hasher} {f : Filter} {P : List Hash} {root : CCell} {S S' : List Hash} {J J' : Hash → Prop} (hS : ∀ h ∈ S, h ∈ S') (hJ : ∀ h, J h → J' h)
    {t : Cell} {r : Check} (h : Ans H f P root S J t r) : Ans H f P root S' J' t r := by
  induction h with
  | imm hb hc => exact .imm hb fun x h1 h2 => hS _ (hc x h1 h2)
  | deferred hb hj => exact .deferred hb (hJ _ hj)
  | parts ht hf hp hb hc hl hi ih => exact .parts ht hf hp hb (fun u hu x h1 h2 => hS _ (hc u hu x h1 h2)) hl ih

def hasJob (m : Main) (h : Hash) : Prop := ∃ j, find m.jobs h = some j

structure JobOk (H : Hasher) (f : Filter) (P : List Hash) (root : CCell) (h : Hash) (j : Job) : Prop where
  below : Below [root] j.cell
  reach : Reach H f root.tree j.cell.tree
  hash : h = j.cell.reprHash
  incl : f h ≠ .skip
  pruned : j.isPruned = true ↔ h ∈ P
  whole : j.skip = true → ∀ x, Cell.Sub x j.cell.tree → f (x.reprHash H) ≠ .skip

structure MainInv (H : Hasher) (f : Filter) (P : List Hash) (root : CCell) (m : Main) : Prop where
  fill : FillInv H f P root ⟨m.visited, m.changed⟩
  jobs : ∀ h j, (h, j) ∈ m.jobs → JobOk H f P root h j

structure Grows (m m' : Main) : Prop where
  changed : ∀ h ∈ m.changed, h ∈ m'.changed
  jobs : ∀ h, hasJob m h → hasJob m' h

theorem Grows.refl (m : Main) : Grows m m := ⟨fun _ h => h, fun _ h => h⟩

theorem Grows.trans {a b c : Main} (h : Grows a b) (g : Grows b c) : Grows a c := ⟨fun x hx => g.changed x (h.changed x hx), fun x hx => g.jobs x (h.jobs x hx)⟩

def MAns (H : Hasher) (f : Filter) (P : List Hash) (root : CCell) (m : Main) (t : Cell) (r : Check) : Prop := Ans H f P root m.changed (hasJob m) t r

theorem MAns.mono {H : Hasher} {f : Filter} {P : List Hash} {root : CCell} {m m' : Main} (g : Grows m m') {t : Cell} {r : Check} (h : MAns H f P root m t r) :
    MAns H f P root m' t r := Ans.mono g.changed g.jobs h

/-- The loop over the references, after the cells `ts`. -/
def KidsOk (H : Hasher) (f : Filter) (P : List Hash) (root : CCell) (m : Main) (ts : List Cell) : Kids → Prop
  | .flag b => (b = true ↔ ∃ u ∈ ts, Holds H f P u) ∧ ∀ u ∈ ts, ∀ x, Reach H f u x → Changed H f P x → x.reprHash H ∈ m.changed
  | .items l => ∃ us vs b its, ts = us ++ vs ∧ l = .immediate b :: its ∧ (b = true ↔ ∃ u ∈ us, Holds H f P u) ∧
      (∀ u ∈ us, ∀ x, Reach H f u x → Changed H f P x → x.reprHash H ∈ m.changed) ∧ vs.length = its.length ∧ ∀ q ∈ vs.zip its, MAns H f P root m q.1 q.2

theorem KidsOk.mono {H : Hasher} {f : Filter} {P : List Hash} {root : CCell} {m m' : Main} (g : Grows m m') {ts : List Cell} {k : Kids} (h : KidsOk H f P root m ts k) :
    KidsOk H f P root m' ts k := by
  cases k with
  | flag b => exact ⟨h.1, fun u hu x h1 h2 => g.changed _ (h.2 u hu x h1 h2)⟩
  | items l =>
    obtain ⟨us, vs, b, its, h1, h2, h3, h4, h5, h6⟩ := h
    exact ⟨us, vs, b, its, h1, h2, h3, fun u hu x a b => g.changed _ (h4 u hu x a b), h5, fun q hq => (h6 q hq).mono g⟩

theorem KidsOk.add {H : Hasher} {f : Filter} {P : List Hash} {root : CCell} {m : Main} {ts : List Cell} {k : Kids} (h : KidsOk H f P root m ts k) {t : Cell} {r : Check}
    (hr : MAns H f P root m t r) : KidsOk H f P root m (ts ++ [t]) (k.add r) := by
  cases k with
  | flag b =>
    have hother : (∀ b, r ≠ .immediate b) → KidsOk H f P root m (ts ++ [t]) (.items [.immediate b, r]) := by
      intro _
      refine ⟨ts, [t], b, [r], rfl, rfl, h.1, h.2, rfl, ?_⟩
      intro q hq
      have : q = (t, r) := by simpa using hq
      subst this
      exact hr
    cases r with
    | immediate b' =>
      unfold MAns at hr
      cases hr with
      | imm hb hc =>
        refine ⟨?_, ?_⟩
        · rw [Bool.or_eq_true, h.1, hb]
          constructor
          · rintro (⟨u, hu, hh⟩ | hh)
            · exact ⟨u, by simp [hu], hh⟩
            · exact ⟨t, by simp, hh⟩
          · rintro ⟨u, hu, hh⟩
            rcases List.mem_append.mp hu with hu | hu
            · exact .inl ⟨u, hu, hh⟩
            · rw [List.mem_singleton.mp hu] at hh; exact .inr hh
        · intro u hu
          rcases List.mem_append.mp hu with hu | hu
          · exact h.2 u hu
          · rw [List.mem_singleton.mp hu]; exact hc
    | parts a b c => exact hother (by simp)
    | deferred a => exact hother (by simp)
  | items l =>
    obtain ⟨us, vs, b, its, h1, h2, h3, h4, h5, h6⟩ := h
    refine ⟨us, vs ++ [t], b, its ++ [r], by rw [h1, List.append_assoc], by rw [h2]; rfl, h3, h4, by simp [h5], ?_⟩
    intro q hq
    rw [List.zip_append h5] at hq
    rcases List.mem_append.mp hq with hq | hq
    · exact h6 q hq
    · have : q = (t, r) := by simpa using hq
      subst this
      exact hr

/-- What is known after a cell. -/
structure After (H : Hasher) (f : Filter) (P : List Hash) (root : CCell) (m : Main) (c : CCell) (out : Check × Main) : Prop where
  inv : MainInv H f P root out.2
  ans : MAns H f P root out.2 c.tree out.1
  grows : Grows m out.2

theorem finish_ok {H : Hasher} {f : Filter} {P : List Hash} {root c : CCell} (hc : Built H c) (hb : Below [root] c) (hre : Reach H f root.tree c.tree) (hf : f (c.tree.reprHash H) ≠ .skip)
    {m : Main} (hi : MainInv H f P root m) {k : Kids} (hk : KidsOk H f P root m c.tree.refs k) :
    After H f P root m c (mark c.reprHash (k.finish c.reprHash (decide (c.reprHash ∈ P)) m)) := by
  have hh := reprHash_tree hc
  cases k with
  | items l =>
    obtain ⟨us, vs, b, its, h1, h2, h3, h4, h5, h6⟩ := hk
    refine ⟨hi, ?_, Grows.refl _⟩
    show Ans H f P root m.changed (hasJob m) c.tree (.parts c.reprHash l (decide (c.reprHash ∈ P)))
    rw [h2, hh]
    exact .parts h1 hf (by simp) h3 h4 h5 h6
  | flag b =>
    have hiff : (b || decide (c.reprHash ∈ P)) = true ↔ Holds H f P c.tree := by
      rw [Bool.or_eq_true, decide_eq_true_iff, hh, hk.1]
      constructor
      · rintro (⟨y, hy, h⟩ | h)
        · exact .deep hf hy h
        · exact .here h
      · intro h
        cases h with
        | here h => exact .inr h
        | deep _ hr h => exact .inl ⟨_, hr, h⟩
    have hmono : ∀ x ∈ m.changed, x ∈ (if b = true then c.reprHash :: m.changed else m.changed) := by
      intro x hx
      cases b
      · simpa using hx
      · simp [hx]
    have hcov : ∀ x, Reach H f c.tree x → Changed H f P x → x.reprHash H ∈ (if b = true then c.reprHash :: m.changed else m.changed) := by
      intro x hx hc
      cases hx with
      | refl => rw [hk.1.mpr hc.2, hh]; simp
      | step _ hr hx => exact hmono _ (hk.2 _ hr x hx hc)
    have hout : mark c.reprHash (Kids.finish c.reprHash (decide (c.reprHash ∈ P)) m (.flag b)) = (.immediate (b || decide (c.reprHash ∈ P)),
        ⟨(c.reprHash, b || decide (c.reprHash ∈ P)) :: m.visited, if b = true then c.reprHash :: m.changed else m.changed, m.jobs⟩) := by
      cases b <;> rfl
    rw [hout]
    refine ⟨⟨hi.fill.mono_visited hmono ⟨c, hb, rfl, hiff, hcov⟩ ?_, hi.jobs⟩, .imm hiff hcov, ⟨hmono, fun _ h => h⟩⟩
    intro x hx
    cases b with
    | false => exact hi.fill.changed x hx
    | true =>
      rcases List.mem_cons.mp (show x ∈ c.reprHash :: m.changed from hx) with rfl | hx
      · exact ⟨c.tree, hre, hh, hf, hk.1.mp rfl⟩
      · exact hi.fill.changed x hx

mutual
theorem parNew_ok {H : Hasher} {f : Filter} {P split : List Hash} {root : CCell} (ha : Boc.Writer.Apart H (Below [root])) (hA : Closed H f root.tree) (scope : Bool) :
    ∀ (c : CCell) (skip : Bool) (m : Main), Below [root] c → Reach H f root.tree c.tree → MainInv H f P root m →
      (skip = true → ∀ x, Cell.Sub x c.tree → f (x.reprHash H) ≠ .skip) → After H f P root m c (parNew f P split scope c skip m)
  | .mk desc bitLen data refs hashes, skip, m, hb, hre, hi, hs => by
    have hrun : parNew f P split scope (.mk desc bitLen data refs hashes) skip m =
      (if (enters f (CCell.mk desc bitLen data refs hashes).reprHash skip).1 then
        if scope && decide ((CCell.mk desc bitLen data refs hashes).reprHash ∈ split) then
          match find m.jobs (CCell.mk desc bitLen data refs hashes).reprHash with
          | some _ => (.deferred (CCell.mk desc bitLen data refs hashes).reprHash, m)
          | none => (.deferred (CCell.mk desc bitLen data refs hashes).reprHash, { m with jobs := ((CCell.mk desc bitLen data refs hashes).reprHash,
              ⟨CCell.mk desc bitLen data refs hashes, (enters f (CCell.mk desc bitLen data refs hashes).reprHash skip).2, decide ((CCell.mk desc bitLen data refs hashes).reprHash ∈ P)⟩) :: m.jobs })
        else
          mark (CCell.mk desc bitLen data refs hashes).reprHash
            ((parKids f P split scope refs (enters f (CCell.mk desc bitLen data refs hashes).reprHash skip).2 (.flag false) m).1.finish (CCell.mk desc bitLen data refs hashes).reprHash
              (decide ((CCell.mk desc bitLen data refs hashes).reprHash ∈ P))
              (parKids f P split scope refs (enters f (CCell.mk desc bitLen data refs hashes).reprHash skip).2 (.flag false) m).2)
      else (.immediate (decide ((CCell.mk desc bitLen data refs hashes).reprHash ∈ P)),
        { m with visited := ((CCell.mk desc bitLen data refs hashes).reprHash, decide ((CCell.mk desc bitLen data refs hashes).reprHash ∈ P)) :: m.visited })) := rfl
    rw [hrun]
    have hkids := fun skip' => parKids_ok (P := P) (split := split) ha hA scope refs skip' [] (.flag false) m
    have hrefs : (CCell.mk desc bitLen data refs hashes).refs = refs := rfl
    generalize CCell.mk desc bitLen data refs hashes = c at *
    have hcb := ha.built hb
    have hh := reprHash_tree hcb
    have htr : c.tree.refs = refs.map CCell.tree := by rw [CCell.tree_refs, hrefs]
    rw [enters_eq (fun h => by rw [hh]; exact hs h _ (.refl _))]
    by_cases hf : f c.reprHash = .skip
    · rw [if_neg (by simp [hf])]
      have hnc : ¬ Changed H f P c.tree := fun h => h.1 (by rw [← hh]; exact hf)
      have hcov : ∀ S : List Hash, ∀ x, Reach H f c.tree x → Changed H f P x → x.reprHash H ∈ S := by
        intro r' x hx hc
        cases hx with
        | refl => exact absurd hc hnc
        | step hf' _ _ => exact absurd (by rw [← hh]; exact hf) hf'
      have hiff : decide (c.reprHash ∈ P) = true ↔ Holds H f P c.tree := by
        rw [decide_eq_true_iff, hh]
        constructor
        · exact fun h => .here h
        · intro h
          cases h with
          | here h => exact h
          | deep hf' _ _ => exact absurd (by rw [← hh]; exact hf) hf'
      exact ⟨⟨hi.fill.mono_visited (fun _ h => h) ⟨c, hb, rfl, hiff, hcov _⟩ hi.fill.changed, hi.jobs⟩, .imm hiff (hcov _), ⟨fun _ h => h, fun _ h => h⟩⟩
    · rw [if_pos (by simp [hf])]
      have hf' : f (c.tree.reprHash H) ≠ .skip := by rw [← hh]; exact hf
      have hskip : (enters f c.reprHash skip).2 = true → ∀ x, Cell.Sub x c.tree → f (x.reprHash H) ≠ .skip := by
        intro he
        unfold enters at he
        cases skip with
        | true => exact hs rfl
        | false =>
          rw [if_neg (by simp)] at he
          cases hfc : f c.reprHash with
          | skip => exact absurd hfc hf
          | incl => rw [hfc] at he; cases he
          | inclSubtree => exact hA _ (below_sub hb) (by rw [← hh]; exact hfc)
      by_cases hsp : (scope && decide (c.reprHash ∈ split)) = true
      · rw [if_pos hsp]
        cases hfd : find m.jobs c.reprHash with
        | some j => exact ⟨hi, .deferred hb ⟨j, hfd⟩, Grows.refl _⟩
        | none =>
          refine ⟨⟨hi.fill, ?_⟩, .deferred hb ⟨_, by unfold find; exact if_pos rfl⟩, ⟨fun _ h => h, ?_⟩⟩
          · intro h j hj
            rcases List.mem_cons.mp hj with e | hj
            · injection e with e1 e2
              subst e1 e2
              exact ⟨hb, hre, rfl, hf, by simp, hskip⟩
            · exact hi.jobs h j hj
          · rintro h ⟨j, hj⟩
            show ∃ j, find ((c.reprHash, _) :: m.jobs) h = some j
            unfold find
            split
            · exact ⟨_, rfl⟩
            · exact ⟨j, hj⟩
      · rw [if_neg hsp]
        obtain ⟨k1, k2, k3⟩ := hkids (enters f c.reprHash skip).2 (fun x hx => ha.child hb (by rw [hrefs]; exact hx))
          (fun x hx => hre.snoc hf' (by rw [htr]; exact List.mem_map.mpr ⟨x, hx, rfl⟩)) hi
          (fun he y hy x hx => hskip he x (by
            obtain ⟨t, ht⟩ : ∃ t, t = c.tree := ⟨_, rfl⟩
            rw [← ht] at htr ⊢
            obtain ⟨e, b, rs⟩ := t
            exact .child (show y.tree ∈ rs from (show rs = refs.map CCell.tree from htr) ▸ List.mem_map.mpr ⟨y, hy, rfl⟩) hx)) ⟨by simp, by simp⟩
        generalize parKids f P split scope refs (enters f c.reprHash skip).2 (.flag false) m = out at *
        obtain ⟨g1, g2, g3⟩ := finish_ok hcb hb hre hf' k1 (k := out.1) (by rw [htr]; simpa using k2)
        exact ⟨g1, g2, k3.trans g3⟩
theorem parKids_ok {H : Hasher} {f : Filter} {P split : List Hash} {root : CCell} (ha : Boc.Writer.Apart H (Below [root])) (hA : Closed H f root.tree) (scope : Bool) :
    ∀ (cs : List CCell) (skip : Bool) (ts : List Cell) (k : Kids) (m : Main), (∀ c ∈ cs, Below [root] c) → (∀ c ∈ cs, Reach H f root.tree c.tree) → MainInv H f P root m →
      (skip = true → ∀ c ∈ cs, ∀ x, Cell.Sub x c.tree → f (x.reprHash H) ≠ .skip) → KidsOk H f P root m ts k →
      MainInv H f P root (parKids f P split scope cs skip k m).2 ∧
        KidsOk H f P root (parKids f P split scope cs skip k m).2 (ts ++ cs.map CCell.tree) (parKids f P split scope cs skip k m).1 ∧
        Grows m (parKids f P split scope cs skip k m).2
  | [], skip, ts, k, m, hb, hre, hi, hs, hk => ⟨hi, by simpa [parKids] using hk, Grows.refl _⟩
  | c :: cs, skip, ts, k, m, hb, hre, hi, hs, hk => by
    have hrun : parKids f P split scope (c :: cs) skip k m =
      parKids f P split scope cs skip (k.add (seen c m (parNew f P split scope c skip m)).1) (seen c m (parNew f P split scope c skip m)).2 := rfl
    rw [hrun]
    have hfirst : After H f P root m c (seen c m (parNew f P split scope c skip m)) := by
      have hnew := parNew_ok (P := P) (split := split) ha hA scope c skip m (hb c (by simp)) (hre c (by simp)) hi (fun h => hs h c (by simp))
      generalize parNew f P split scope c skip m = out at *
      unfold seen
      cases hv : find m.visited c.reprHash with
      | none => exact hnew
      | some b =>
        obtain ⟨c', g1, g2, g3, g4⟩ := hi.fill.visited _ _ (find_mem hv)
        have ht := ha.inj (hb c (by simp)) g1 g2
        refine ⟨hi, ?_, Grows.refl _⟩
        rw [ht]
        exact .imm g3 g4
    obtain ⟨i1, i2, i3⟩ := hfirst
    generalize seen c m (parNew f P split scope c skip m) = out at *
    obtain ⟨j1, j2, j3⟩ := parKids_ok ha hA scope cs skip (ts ++ [c.tree]) (k.add out.1) out.2 (fun x hx => hb x (by simp [hx])) (fun x hx => hre x (by simp [hx])) i1
      (fun h x hx => hs h x (by simp [hx])) ((hk.mono i3).add i2)
    exact ⟨j1, by simpa using j2, i3.trans j3⟩
end

/-! ### Tasks and the end -/

/-- What is known of a cell after its task: the result, and the changed cells. -/
structure Knows (H : Hasher) (f : Filter) (P : List Hash) (t : Cell) (b : Bool) (S : List Hash) : Prop where
  value : b = true ↔ Holds H f P t
  covers : ∀ x, Reach H f t x → Changed H f P x → x.reprHash H ∈ S

theorem job_run {H : Hasher} {f : Filter} {P split : List Hash} {root : CCell} (ha : Boc.Writer.Apart H (Below [root])) (hA : Closed H f root.tree) {h : Hash} {j : Job}
    (hj : JobOk H f P root h j) : ∃ b S, j.run f P split = some (b, S) ∧ Knows H f P j.cell.tree b S ∧ ∀ h ∈ S, ∃ x, Reach H f root.tree x ∧ h = x.reprHash H ∧ Changed H f P x := by
  obtain ⟨h1, h2, h3, h4, h5, h6⟩ := hj
  subst h3
  have hh := reprHash_tree (ha.built h1)
  have hf : f (j.cell.tree.reprHash H) ≠ .skip := by rw [← hh]; exact h4
  have htr := CCell.tree_refs j.cell
  have hi : FillInv H f P root ⟨[], []⟩ := ⟨by simp, by simp⟩
  obtain ⟨k1, k2, k3, k4⟩ := fillKids_spec (P := P) ha hA j.cell.refs j.skip ⟨[], []⟩ (fun x hx => ha.child h1 hx)
    (fun x hx => h2.snoc hf (mem_refs_tree hx)) hi (fun he y hy x hx => h6 he x (.child (mem_refs_tree hy) hx))
  have hrun : j.run f P split = some ((fillKids f P j.cell.refs j.skip ⟨[], []⟩).1 || j.isPruned,
      if (fillKids f P j.cell.refs j.skip ⟨[], []⟩).1 = true then j.cell.reprHash :: (fillKids f P j.cell.refs j.skip ⟨[], []⟩).2.changed
      else (fillKids f P j.cell.refs j.skip ⟨[], []⟩).2.changed) := by
    unfold Job.run
    rw [parKids_alone]
    dsimp only
    generalize fillKids f P j.cell.refs j.skip ⟨[], []⟩ = out
    obtain ⟨b, r⟩ := out
    cases b <;> rfl
  generalize fillKids f P j.cell.refs j.skip ⟨[], []⟩ = out at *
  obtain ⟨b, r⟩ := out
  dsimp only at k1 k2 k3 k4 hrun
  have hex : b = true ↔ ∃ y ∈ j.cell.tree.refs, Holds H f P y := by
    rw [k2, htr]
    constructor
    · rintro ⟨y, hy, h⟩; exact ⟨_, List.mem_map.mpr ⟨y, hy, rfl⟩, h⟩
    · rintro ⟨t, ht, h⟩
      obtain ⟨y, hy, rfl⟩ := List.mem_map.mp ht
      exact ⟨y, hy, h⟩
  refine ⟨_, _, hrun, ⟨?_, ?_⟩, ?_⟩
  · rw [Bool.or_eq_true, h5, hex, hh]
    constructor
    · rintro (⟨y, hy, h⟩ | h)
      · exact .deep hf hy h
      · exact .here h
    · intro h
      cases h with
      | here h => exact .inr h
      | deep _ hr h => exact .inl ⟨_, hr, h⟩
  · intro x hx hc
    cases hx with
    | refl => rw [hex.mpr hc.2, hh]; simp
    | step _ hr hx =>
      rw [htr] at hr
      obtain ⟨y, hy, rfl⟩ := List.mem_map.mp hr
      have := k3 y hy x hx hc
      cases b
      · exact this
      · exact List.mem_cons_of_mem _ this
  · intro x hx
    cases hb : b with
    | false => rw [hb] at hx; exact k1.changed x hx
    | true =>
      rw [hb] at hx
      rcases List.mem_cons.mp (show x ∈ j.cell.reprHash :: r.changed from hx) with rfl | hx
      · exact ⟨_, h2, hh, hf, hex.mp hb⟩
      · exact k1.changed x hx

/-- The end of a list of answers. -/
theorem finalList_ok {H : Hasher} {f : Filter} {P S : List Hash} {prom : Hash → Option Bool} : ∀ (vs : List Cell) (its : List Check), vs.length = its.length →
    (∀ q ∈ vs.zip its, ∃ b S', q.2.final prom = some (b, S') ∧ Knows H f P q.1 b (S' ++ S) ∧ ∀ h ∈ S', ∃ x, Reach H f q.1 x ∧ h = x.reprHash H ∧ Changed H f P x) →
    ∃ b S', finalList prom its = some (b, S') ∧ (b = true ↔ ∃ v ∈ vs, Holds H f P v) ∧ (∀ v ∈ vs, ∀ x, Reach H f v x → Changed H f P x → x.reprHash H ∈ S' ++ S) ∧
      ∀ h ∈ S', ∃ v ∈ vs, ∃ x, Reach H f v x ∧ h = x.reprHash H ∧ Changed H f P x
  | [], [], _, _ => ⟨false, [], rfl, by simp, by simp, by simp⟩
  | v :: vs, it :: its, hl, hi => by
    obtain ⟨a, s, e1, ⟨e2, e3⟩, e4⟩ := hi (v, it) (by simp)
    obtain ⟨b, s', g1, g2, g3, g4⟩ := finalList_ok vs its (by simpa using hl) (fun q hq => hi q (by simp [hq]))
    refine ⟨a || b, s ++ s', by rw [finalList, e1]; dsimp only; rw [g1], ?_, ?_, ?_⟩
    · rw [Bool.or_eq_true, e2, g2]; simp
    · intro u hu x h1 h2
      rcases List.mem_cons.mp hu with rfl | hu
      · rcases List.mem_append.mp (e3 x h1 h2) with h | h <;> simp [h]
      · rcases List.mem_append.mp (g3 u hu x h1 h2) with h | h <;> simp [h]
    · intro h hh
      rcases List.mem_append.mp hh with hh | hh
      · exact ⟨v, by simp, e4 h hh⟩
      · obtain ⟨u, hu, r⟩ := g4 h hh
        exact ⟨u, by simp [hu], r⟩

/-- The end of an answer. -/
theorem final_ok {H : Hasher} {f : Filter} {P S T : List Hash} {root : CCell} {J : Hash → Prop} {prom : Hash → Option Bool} (hS : ∀ h ∈ S, h ∈ T)
    (hp : ∀ c : CCell, Below [root] c → J c.reprHash → ∃ b, prom c.reprHash = some b ∧ Knows H f P c.tree b T) {t : Cell} {r : Check} (h : Ans H f P root S J t r) :
    ∃ b S', r.final prom = some (b, S') ∧ Knows H f P t b (S' ++ T) ∧ ∀ h ∈ S', ∃ x, Reach H f t x ∧ h = x.reprHash H ∧ Changed H f P x := by
  induction h with
  | imm hb hc => exact ⟨_, [], by rw [Check.final], ⟨hb, fun x h1 h2 => hS _ (hc x h1 h2)⟩, by simp⟩
  | deferred hb hj =>
    obtain ⟨b, e, hk⟩ := hp _ hb hj
    exact ⟨b, [], by rw [Check.final, e], hk, by simp⟩
  | @parts t us vs b p its ht hf hp' hb hc hl hi ih =>
    obtain ⟨b', s, g1, g2, g3, g4⟩ := finalList_ok vs its hl ih
    have hex : (b || b') = true ↔ ∃ r ∈ t.refs, Holds H f P r := by
      rw [Bool.or_eq_true, hb, g2, ht]
      constructor
      · rintro (⟨u, hu, h⟩ | ⟨u, hu, h⟩)
        · exact ⟨u, by simp [hu], h⟩
        · exact ⟨u, by simp [hu], h⟩
      · rintro ⟨u, hu, h⟩
        rcases List.mem_append.mp hu with hu | hu
        · exact .inl ⟨u, hu, h⟩
        · exact .inr ⟨u, hu, h⟩
    refine ⟨(b || b') || p, if (b || b') = true then t.reprHash H :: s else s, ?_, ⟨?_, ?_⟩, ?_⟩
    · rw [Check.final, finalList, Check.final]
      dsimp only
      rw [g1]
      rfl
    · rw [Bool.or_eq_true, hp', hex]
      constructor
      · rintro (⟨y, hy, h⟩ | h)
        · exact .deep hf hy h
        · exact .here h
      · intro h
        cases h with
        | here h => exact .inr h
        | deep _ hr h => exact .inl ⟨_, hr, h⟩
    · intro x hx hc'
      have hin : ∀ y ∈ s ++ T, y ∈ (if (b || b') = true then t.reprHash H :: s else s) ++ T := by
        intro y hy
        split
        · exact List.mem_cons_of_mem _ hy
        · exact hy
      cases hx with
      | refl => rw [hex.mpr hc'.2]; simp
      | step _ hr hx =>
        rw [ht] at hr
        rcases List.mem_append.mp hr with hu | hu
        · exact hin _ (List.mem_append.mpr (.inr (hS _ (hc _ hu x hx hc'))))
        · exact hin _ (g3 _ hu x hx hc')
    · intro y hy
      have hdeep : y ∈ s → ∃ x, Reach H f t x ∧ y = x.reprHash H ∧ Changed H f P x := by
        intro hy
        obtain ⟨v, hv, x, h1, h2, h3⟩ := g4 y hy
        exact ⟨x, .step hf (by rw [ht]; simp [hv]) h1, h2, h3⟩
      split at hy
      · rename_i hbb
        rcases List.mem_cons.mp hy with rfl | hy
        · exact ⟨t, .refl _, rfl, hf, hex.mp hbb⟩
        · exact hdeep hy
      · exact hdeep hy

/-- The changed cells found by the tasks are those of the single-threaded builder. -/
theorem parChanged_exact {H : Hasher} {f : Filter} {P split : List Hash} {root : CCell} (ha : Boc.Writer.Apart H (Below [root])) (hA : Closed H f root.tree) :
    ∃ S, parChanged f P split root = some S ∧
      ∀ h, h ∈ S ↔ (Holds H f P root.tree ∧ h = root.reprHash) ∨ ∃ x, Reach H f root.tree x ∧ h = x.reprHash H ∧ Changed H f P x := by
  have hroot : Below [root] root := ⟨root, by simp, .refl _⟩
  have hi : MainInv H f P root ⟨[], [], []⟩ := ⟨⟨by simp, by simp⟩, by simp⟩
  obtain ⟨h1, h2, h3⟩ := parNew_ok (P := P) (split := split) ha hA true root false ⟨[], [], []⟩ hroot (.refl _) hi (by simp)
  have hseen : seen root ⟨[], [], []⟩ (parNew f P split true root false ⟨[], [], []⟩) = parNew f P split true root false ⟨[], [], []⟩ := rfl
  unfold parChanged
  rw [hseen]
  generalize parNew f P split true root false ⟨[], [], []⟩ = out at *
  obtain ⟨r, m⟩ := out
  dsimp only at h1 h2 h3 ⊢
  have hjob : ∀ h j, (h, j) ∈ m.jobs → ∃ b S, j.run f P split = some (b, S) ∧ Knows H f P j.cell.tree b S ∧ ∀ h ∈ S, ∃ x, Reach H f root.tree x ∧ h = x.reprHash H ∧ Changed H f P x :=
    fun h j hj => job_run ha hA (h1.jobs h j hj)
  rw [if_neg (by
    intro hany
    obtain ⟨⟨h, j⟩, hj, hn⟩ := List.any_eq_true.mp hany
    obtain ⟨b, S, e, _⟩ := hjob h j hj
    rw [e] at hn
    cases hn)]
  obtain ⟨T, hT⟩ : ∃ T, T = (m.jobs.flatMap fun j => j.2.inserted f P split) ++ m.changed := ⟨_, rfl⟩
  obtain ⟨b, S', e, ⟨e1, e2⟩, e3⟩ := final_ok (T := T) (prom := promise f P split m.jobs) (fun h hh => by rw [hT]; exact List.mem_append.mpr (.inr hh)) (by
    intro c hc hj
    obtain ⟨j, hf⟩ := hj
    have hmem := find_mem hf
    obtain ⟨b, S, g1, g2, g3⟩ := hjob _ _ hmem
    have hjo := h1.jobs _ _ hmem
    have heq := ha.inj hc hjo.below hjo.hash
    refine ⟨b, by unfold promise; rw [hf]; dsimp only; rw [g1]; rfl, ?_⟩
    rw [heq]
    refine ⟨g2.value, fun x hx hcx => ?_⟩
    rw [hT]
    refine List.mem_append.mpr (.inl (List.mem_flatMap.mpr ⟨_, hmem, ?_⟩))
    show _ ∈ j.inserted f P split
    unfold Job.inserted
    rw [g1]
    exact g2.covers x hx hcx) h2
  rw [e]
  refine ⟨_, rfl, fun h => ?_⟩
  rw [List.append_assoc, ← hT]
  have hiff : h ∈ S' ++ T ↔ ∃ x, Reach H f root.tree x ∧ h = x.reprHash H ∧ Changed H f P x := by
    constructor
    · intro hh
      rcases List.mem_append.mp hh with hh | hh
      · exact e3 h hh
      · rw [hT] at hh
        rcases List.mem_append.mp hh with hh | hh
        · obtain ⟨⟨k, j⟩, hj, hh⟩ := List.mem_flatMap.mp hh
          obtain ⟨b, S, g1, g2, g3⟩ := hjob _ _ hj
          replace hh : h ∈ j.inserted f P split := hh
          unfold Job.inserted at hh
          rw [g1] at hh
          exact g3 h hh
        · exact h1.fill.changed h hh
    · rintro ⟨x, a, rfl, c⟩
      exact e2 x a c
  rw [← hiff, ← e1]
  cases b <;> simp

theorem holds_congr {H : Hasher} {f : Filter} {P P' : List Hash} (h : ∀ x, x ∈ P ↔ x ∈ P') {t : Cell} (ht : Holds H f P t) : Holds H f P' t := by
  induction ht with
  | here hh => exact .here ((h _).mp hh)
  | deep hf hr _ ih => exact .deep hf hr ih

theorem changed_congr {H : Hasher} {f : Filter} {P P' : List Hash} (h : ∀ x, x ∈ P ↔ x ∈ P') {t : Cell} (ht : Changed H f P t) : Changed H f P' t :=
  ⟨ht.1, ht.2.imp fun _ hr => ⟨hr.1, holds_congr h hr.2⟩⟩

/-! ### The property -/

/-- The two update builders agree: both fail, or both give updates with the same hashes and depths and with partial trees of the same content. -/
def AgreeU (r q : Except Err Update) : Prop :=
  match r, q with
  | .ok u, .ok v => u.oldHash = v.oldHash ∧ u.newHash = v.newHash ∧ u.oldDepth = v.oldDepth ∧ u.newDepth = v.newDepth ∧ u.old.tree = v.old.tree ∧ u.new.tree = v.new.tree ∧
      ∀ l, u.old.hash l = v.old.hash l ∧ u.new.hash l = v.new.hash l
  | .error _, .error _ => True
  | _, _ => False

/-- C84: whatever is split off in the two trees and in whatever order the tasks take their steps, a complete multithreaded build of an
update agrees with the single-threaded build. The old tree has no cell at two Merkle depths, the same holds for the new cells of the
new tree, included subtrees contain no skipped cells, and no two cells of a tree have the same hash. -/
theorem C84_update_partial {H : Hasher} {f : Filter} {old new : CCell} (hold : Built H old) (hnew : Built H new) (hA : Closed H f old.tree)
    (ho : ∀ cfg, OneDepth H cfg old.tree) (hn : OneDepth H ⟨inverted f, false⟩ new.tree) (oldSplit newSplit : List Hash) (newSched oldSched : List Nat) (n : Nat)
    {r : Except Err Update} (h : updateBuild H f oldSplit newSplit old new newSched oldSched n = some r) :
    Clash H [old] ∨ Clash H [new] ∨ AgreeU r (Update.build H f old new) := by
  by_cases hco : Clash H [old]
  · exact .inl hco
  by_cases hcn : Clash H [new]
  · exact .inr (.inl hcn)
  right; right
  unfold updateBuild at h
  unfold Update.build
  by_cases he : old.reprHash = new.reprHash
  · rw [if_pos he] at h ⊢
    injection h with h
    subst h
    cases hp : makePruned H old.view 0 with
    | error e => trivial
    | ok p => exact ⟨rfl, rfl, rfl, rfl, rfl, rfl, fun _ => ⟨rfl, rfl⟩⟩
  · rw [if_neg he] at h ⊢
    cases hb : build H ⟨inverted f, false⟩ true newSplit new newSched n with
    | none => rw [hb] at h; cases h
    | some r1 =>
      rw [hb] at h
      have a1 := (C84_proof_partial hnew hn newSplit newSched n hb).resolve_left hcn
      cases r1 with
      | error e =>
        injection h with h
        subst h
        cases hs : buildRaw H ⟨inverted f, false⟩ true new with
        | error e' => trivial
        | ok q => rw [hs] at a1; exact a1.elim
      | ok q1 =>
        obtain ⟨nw, P⟩ := q1
        cases hs : buildRaw H ⟨inverted f, false⟩ true new with
        | error e' => rw [hs] at a1; exact a1.elim
        | ok q2 =>
          obtain ⟨nc, st⟩ := q2
          rw [hs] at a1
          obtain ⟨t1, t2, t3⟩ := a1
          have ha := below_apart (rs := [old]) (by intro r hr'; rw [List.mem_singleton.mp hr']; exact hold) hco
          obtain ⟨S, eS, hS⟩ := parChanged_exact (P := P) (split := oldSplit) ha hA
          have hset : setFilter S = setFilter (changedCells f st.pruned old) := by
            funext h
            have : h ∈ S ↔ h ∈ changedCells f st.pruned old := by
              rw [hS h, changedCells_exact ha hA h]
              have hc' := fun x => (t3 x).symm
              constructor
              · rintro (⟨a, b⟩ | ⟨x, a, b, c⟩)
                · exact .inl ⟨holds_congr t3 a, b⟩
                · exact .inr ⟨x, a, b, changed_congr t3 c⟩
              · rintro (⟨a, b⟩ | ⟨x, a, b, c⟩)
                · exact .inl ⟨holds_congr hc' a, b⟩
                · exact .inr ⟨x, a, b, changed_congr hc' c⟩
            unfold setFilter
            by_cases hh : h ∈ S
            · rw [if_pos hh, if_pos (this.mp hh)]
            · rw [if_neg hh, if_neg (fun g => hh (this.mpr g))]
          dsimp only at h
          rw [eS] at h
          dsimp only at h
          rw [hset] at h
          show AgreeU r (buildRaw H ⟨setFilter (changedCells f st.pruned old), false⟩ true old >>= fun q => Except.ok _)
          cases hb2 : build H ⟨setFilter (changedCells f st.pruned old), false⟩ true oldSplit old oldSched n with
          | none => rw [hb2] at h; cases h
          | some r2 =>
            rw [hb2] at h
            have a2 := (C84_proof_partial hold (ho _) oldSplit oldSched n hb2).resolve_left hco
            cases hs2 : buildRaw H ⟨setFilter (changedCells f st.pruned old), false⟩ true old with
            | error e' =>
              rw [hs2] at a2
              cases r2 with
              | error e => injection h with h; subst h; trivial
              | ok q => exact a2.elim
            | ok q3 =>
              rw [hs2] at a2
              cases r2 with
              | error e => exact a2.elim
              | ok q =>
                injection h with h
                subst h
                exact ⟨rfl, rfl, rfl, rfl, a2.1, t1, fun l => ⟨(a2.2.1 l).1, (t2 l).1⟩⟩

/-- C84: the search for changed cells neither panics nor waits for ever. -/
theorem C84_changed {H : Hasher} {f : Filter} {P split : List Hash} {root : CCell} (hr : Built H root) (hA : Closed H f root.tree) :
    Clash H [root] ∨ ∃ S, parChanged f P split root = some S ∧ ∀ h, h ∈ S ↔ h ∈ changedCells f P root := by
  by_cases hcl : Clash H [root]
  · exact .inl hcl
  · have ha := below_apart (rs := [root]) (by intro r hr'; rw [List.mem_singleton.mp hr']; exact hr) hcl
    obtain ⟨S, e, h⟩ := parChanged_exact (P := P) (split := split) ha hA
    exact .inr ⟨S, e, fun x => by rw [h, changedCells_exact ha hA]⟩

/-! ### Concrete cases -/

/-- A schedule that always takes the first task, or with `late` the last task, that has not ended. -/
def greedy (H : Hasher) (cfg : Config) (split : List Hash) (late : Bool) : Nat → Pool → List Nat
  | 0, _ => []
  | n + 1, s => match (if late then (List.range s.tasks.length).reverse else List.range s.tasks.length).find? fun i => (s.step H cfg split i).isSome with
    | none => []
    | some i => match s.step H cfg split i with
      | none => []
      | some s' => i :: greedy H cfg split late n s'

/-- The multithreaded build of an update with such schedules, and the application of the update to the old tree. -/
def parUpdated (f : Filter) (oldSplit newSplit : List Hash) (late : Bool) (old new : CCell) : Option (Except Err (Update × Except Err CCell)) :=
  let newSched := greedy toyHasher ⟨inverted f, false⟩ newSplit late 60 (Pool.start new)
  match build toyHasher ⟨inverted f, false⟩ true newSplit new newSched 20 with
  | some (.ok (_, pruned)) => match parChanged f pruned oldSplit old with
    | none => none
    | some s =>
      let oldSched := greedy toyHasher ⟨setFilter s, false⟩ oldSplit late 60 (Pool.start old)
      (updateBuild toyHasher f oldSplit newSplit old new newSched oldSched 20).map fun r => r.map fun u => (u, u.apply toyHasher old)
  | _ => none

-- plain trees (see `pair`) and filters without whole subtrees meet the hypotheses of `C84_update_partial`
example {H : Hasher} {f : Filter} {old new : CCell} (ho : Plain H old) (hn : Plain H new) (hf : ∀ h, f h ≠ .inclSubtree) :
    Built H old ∧ Built H new ∧ Closed H f old.tree ∧ (∀ cfg, OneDepth H cfg old.tree) ∧ OneDepth H ⟨inverted f, false⟩ new.tree :=
  ⟨ho.built, hn.built, fun t _ h => absurd h (hf _), fun _ => ho.noMerkle.one, hn.noMerkle.one⟩

-- tasks are split off in both trees of `pair`, which meets the hypotheses; the update is the one of the single-threaded builder
example : (match pair with
  | .ok (old, new, vis) => [false, true].all fun late =>
    match parUpdated (visited vis) ((firstRef old).reprHash :: old.refs.map CCell.reprHash) (new.refs.map CCell.reprHash) late old new, Update.build toyHasher (visited vis) old new with
    | some (.ok (u, .ok c)), .ok v => decide (u.old.reprHash = v.old.reprHash ∧ u.new.reprHash = v.new.reprHash ∧ c.reprHash = new.reprHash)
    | _, _ => false
  | .error _ => false) = true := by decide +kernel

/-- The trees of `twoWays false`, the filter and the split point. -/
def twoWaysPar (split : Bool) : Except Err (Option (Except Err (Update × Except Err CCell)) × CCell) := do
  let leaf ← mkCell false [true, false] []
  let y ← mkCell false [true] [leaf]
  let a ← mkCell false [false] [y]
  let b ← mkCell false [false, false] [a]
  let old ← mkCell false [] [a, b]
  let new ← mkCell false [true, true] [y]
  let f : Filter := fun h => if h = old.reprHash ∨ h = y.reprHash then .incl else if h = b.reprHash then .inclSubtree else .skip
  .ok (parUpdated f (if split then [b.reprHash] else []) [] false old new, new)

/-- Finding: when a skipped cell is inside a subtree that is included as a whole, the update depends on what is split off. Here the update made
without split points cannot be applied, as the one of the single-threaded builder, and the one made with a split point can. -/
theorem C84_update_differs :
    (match twoWaysPar false with | .ok (some (.ok (_, .error .invalidData)), _) => true | _ => false) = true ∧
    (match twoWaysPar true with | .ok (some (.ok (_, .ok c)), new) => decide (c.reprHash = new.reprHash) | _ => false) = true := by decide +kernel

mutual
/-- The number of calls of `finalize` (`merkle/update.rs:713-734`). -/
def Check.calls : Check → Nat
  | .parts _ items _ => callsList items + 1
  | _ => 1
def callsList : List Check → Nat
  | [] => 0
  | c :: cs => c.calls + callsList cs
end

-- finding: cells above a split one are not marked as visited, so the chain of eight distinct cells of `MerkleParProps` takes exponential work here too
example : (match mkCell false [true] [] >>= fun leaf => (chain leaf 7).map fun root =>
      (parNew (fun _ => .incl) [] [leaf.reprHash] true root false ⟨[], [], []⟩).1.calls with
    | .ok n => decide (2 ^ 8 ≤ n)
    | .error _ => false) = true := by decide +kernel

end Par
end Merkle
end Verif
