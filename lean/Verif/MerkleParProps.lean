import Verif.MerkleParSteps
/-
The multithreaded builder of Merkle proofs: for every schedule it ends, nothing waits for ever, and the result is that of the
single-threaded builder.
-/
set_option linter.unusedVariables false
set_option linter.unusedSimpArgs false
namespace Verif
namespace Merkle
namespace Par
open Boc (Below Clash below_apart)

/-! ### Work left -/

mutual
def work : CCell → Nat
  | .mk _ _ _ refs _ => 1 + workList refs
def workList : List CCell → Nat
  | [] => 0
  | c :: cs => work c + 3 + workList cs
end

theorem work_eq (c : CCell) : work c = 1 + workList c.refs := by cases c; rfl

def stackWork : List Frame → Nat
  | [] => 0
  | f :: st => 1 + workList f.rest + stackWork st

def phaseWork : Phase → Nat
  | .walk st => 1 + stackWork st
  | .missed c st => work c + 3 + stackWork st
  | .done _ => 0

theorem give_work (e : Ext) (st : List Frame) : phaseWork (giveChild e st) ≤ 1 + stackWork st := by
  unfold giveChild
  cases st with
  | nil => simp [phaseWork]
  | cons f st =>
    dsimp only
    cases storeExt f.kids e <;> simp [phaseWork, stackWork]

theorem start_work (c : CCell) (md : Nat) : phaseWork (Task.start c md).phase ≤ 1 + work c := by
  unfold Task.start
  dsimp only
  cases bump md c with
  | error e => simp [phaseWork]
  | ok md' => simp [phaseWork, stackWork, work_eq]

theorem advance_work {H : Hasher} {cfg : Config} {split : List Hash} {main : Bool} {next : Nat} {cells : List (Hash × Ext)} {pruned : List Hash} {p : Phase} {o : Out}
    (h : advance H cfg split main next cells pruned p = some o) :
    phaseWork o.phase + ((o.spawn.toList.map fun a => Task.start a.1 a.2).map fun t => phaseWork t.phase).sum < phaseWork p := by
  match p, h with
  | .walk [], h =>
    rw [advance] at h
    injection h with h
    subst h
    simp [phaseWork]
  | .missed c [], h =>
    rw [advance] at h
    injection h with h
    subst h
    simp [phaseWork]
  | .walk (⟨cell, md, c :: cs, kids⟩ :: st), h =>
    rw [advance] at h
    cases hf : find cells c.reprHash with
    | some e =>
      rw [hf] at h
      injection h with h
      subst h
      have := give_work e (⟨cell, md, cs, kids⟩ :: st)
      simp [phaseWork, stackWork, workList] at this ⊢
      omega
    | none =>
      rw [hf] at h
      injection h with h
      subst h
      simp [phaseWork, stackWork, workList]
      omega
  | .walk (⟨cell, md, [], kids⟩ :: st), h =>
    rw [advance] at h
    cases hm : makeExt H ⟨cell, md, [], kids⟩ with
    | ok e =>
      rw [hm] at h
      injection h with h
      subst h
      cases st with
      | nil => simp [leave, phaseWork]
      | cons g st =>
        have := give_work e (g :: st)
        simp [leave, phaseWork, stackWork, workList] at this ⊢
        omega
    | error x =>
      rw [hm] at h
      injection h with h
      subst h
      simp [phaseWork]
  | .missed c (f :: st), h =>
    rw [advance] at h
    have hstore : ∀ e cs pr, phaseWork (Out.mk (giveChild e (f :: st)) cs pr none).phase +
        (((Out.mk (giveChild e (f :: st)) cs pr none).spawn.toList.map fun a => Task.start a.1 a.2).map fun t => phaseWork t.phase).sum < phaseWork (.missed c (f :: st)) := by
      intro e cs pr
      have := give_work e (f :: st)
      simp [phaseWork] at this ⊢
      omega
    have hfail : ∀ x cs pr, phaseWork (Out.mk (.done (.error x)) cs pr none).phase +
        (((Out.mk (.done (.error x)) cs pr none).spawn.toList.map fun a => Task.start a.1 a.2).map fun t => phaseWork t.phase).sum < phaseWork (.missed c (f :: st)) := by
      intro x cs pr
      simp [phaseWork]
    have hnode : (if main && decide (c.reprHash ∈ split) then some (Out.mk (giveChild (.deferred next) (f :: st)) cells pruned (some (c, f.md)))
        else match bump f.md c with
          | .ok md' => some ⟨.walk (⟨c, md', c.refs, []⟩ :: f :: st), cells, pruned, none⟩
          | .error x => some ⟨.done (.error x), cells, pruned, none⟩) = some o →
        phaseWork o.phase + ((o.spawn.toList.map fun a => Task.start a.1 a.2).map fun t => phaseWork t.phase).sum < phaseWork (.missed c (f :: st)) := by
      intro h
      split at h
      · injection h with h
        subst h
        have h1 := give_work (.deferred next) (f :: st)
        have h2 := start_work c f.md
        show phaseWork (giveChild (.deferred next) (f :: st)) + (phaseWork (Task.start c f.md).phase + 0) < work c + 3 + stackWork (f :: st)
        omega
      · cases hb : bump f.md c with
        | ok md' =>
          rw [hb] at h
          injection h with h
          subst h
          simp [phaseWork, stackWork, work_eq]
          omega
        | error x =>
          rw [hb] at h
          injection h with h
          subst h
          exact hfail _ _ _
    cases hfl : cfg.filter c.reprHash with
    | inclSubtree =>
      rw [hfl] at h
      injection h with h
      subst h
      exact hstore _ _ _
    | incl =>
      rw [hfl] at h
      exact hnode h
    | skip =>
      rw [hfl] at h
      cases hpr : prunable cfg c with
      | false =>
        rw [hpr] at h
        exact hnode h
      | true =>
        rw [hpr] at h
        dsimp only at h
        cases hpa : pruneAt H c f.md with
        | ok p =>
          rw [hpa] at h
          injection h with h
          subst h
          exact hstore _ _ _
        | error x =>
          rw [hpa] at h
          injection h with h
          subst h
          exact hfail _ _ _

def poolWork (s : Pool) : Nat := (s.tasks.map fun t => phaseWork t.phase).sum

theorem sum_set {α : Type} (f : α → Nat) : ∀ (l : List α) (i : Nat) (x : α) (h : i < l.length), ((l.set i x).map f).sum + f l[i] = (l.map f).sum + f x
  | y :: l, 0, x, h => by simp; omega
  | y :: l, i + 1, x, h => by
    have := sum_set f l i x (by simpa using h)
    simp at this ⊢
    omega

theorem step_work {H : Hasher} {cfg : Config} {split : List Hash} {s s' : Pool} {i : Nat} (h : s.step H cfg split i = some s') : poolWork s' < poolWork s := by
  unfold Pool.step at h
  cases ht : s.tasks[i]? with
  | none => rw [ht] at h; cases h
  | some t =>
    rw [ht] at h
    dsimp only at h
    cases hadv : advance H cfg split (i == 0) s.tasks.length s.cells s.pruned t.phase with
    | none => rw [hadv] at h; cases h
    | some o =>
      rw [hadv] at h
      injection h with h
      subst h
      have hi : i < s.tasks.length := (List.getElem?_eq_some_iff.mp ht).1
      have hti : s.tasks[i] = t := (List.getElem?_eq_some_iff.mp ht).2
      have h1 := advance_work hadv
      have h2 := sum_set (fun t : Task => phaseWork t.phase) s.tasks i { t with phase := o.phase } hi
      rw [hti] at h2
      unfold poolWork
      dsimp only at h2 ⊢
      rw [List.map_append, List.sum_append]
      omega

theorem run_work {H : Hasher} {cfg : Config} {split : List Hash} : ∀ (sched : List Nat) (s s' : Pool), s.run H cfg split sched = some s' →
    sched.length + poolWork s' ≤ poolWork s
  | [], s, s', h => by
    rw [Pool.run] at h
    injection h with h
    subst h
    simp
  | i :: is, s, s', h => by
    rw [Pool.run] at h
    cases hs : s.step H cfg split i with
    | none => rw [hs] at h; cases h
    | some s1 =>
      rw [hs] at h
      have := run_work is s1 s' h
      have := step_work hs
      simp
      omega

theorem advance_some {H : Hasher} {cfg : Config} {split : List Hash} {main : Bool} {next : Nat} {cells : List (Hash × Ext)} {pruned : List Hash} {p : Phase}
    (h : p.ended = false) : ∃ o, advance H cfg split main next cells pruned p = some o := by
  match p, h with
  | .walk [], h => exact ⟨_, rfl⟩
  | .missed c [], h => exact ⟨_, rfl⟩
  | .walk (⟨cell, md, c :: cs, kids⟩ :: st), h =>
    rw [advance]
    cases find cells c.reprHash <;> exact ⟨_, rfl⟩
  | .walk (⟨cell, md, [], kids⟩ :: st), h =>
    rw [advance]
    cases makeExt H ⟨cell, md, [], kids⟩ <;> exact ⟨_, rfl⟩
  | .missed c (f :: st), h =>
    rw [advance]
    have hnode : ∃ o, (if main && decide (c.reprHash ∈ split) then some (Out.mk (giveChild (.deferred next) (f :: st)) cells pruned (some (c, f.md)))
        else match bump f.md c with
          | .ok md' => some ⟨.walk (⟨c, md', c.refs, []⟩ :: f :: st), cells, pruned, none⟩
          | .error x => some ⟨.done (.error x), cells, pruned, none⟩) = some o := by
      split
      · exact ⟨_, rfl⟩
      · cases bump f.md c <;> exact ⟨_, rfl⟩
    cases cfg.filter c.reprHash with
    | inclSubtree => exact ⟨_, rfl⟩
    | incl => exact hnode
    | skip =>
      cases prunable cfg c with
      | false => exact hnode
      | true =>
        dsimp only
        cases pruneAt H c f.md <;> exact ⟨_, rfl⟩

/-! ### After all tasks have ended -/

theorem run_ok {H : Hasher} {cfg : Config} {root : CCell} (ha : Boc.Writer.Apart H (Below [root])) (ho : OneDepth H cfg root.tree) {split : List Hash} :
    ∀ (sched : List Nat) (s s' : Pool), PoolOk H cfg root s → s.run H cfg split sched = some s' → PoolOk H cfg root s'
  | [], s, s', hs, h => by
    rw [Pool.run] at h
    injection h with h
    exact h ▸ hs
  | i :: is, s, s', hs, h => by
    rw [Pool.run] at h
    cases hi : s.step H cfg split i with
    | none => rw [hi] at h; cases h
    | some s1 =>
      rw [hi] at h
      exact run_ok ha ho is s1 s' (step_ok ha ho hs hi) h

theorem ended_promise {s : Pool} (h : s.ended = true) {i : Nat} {t : Task} (ht : s.tasks[i]? = some t) : ∃ r, t.phase = .done r ∧ s.promise i = some r := by
  have hm : t ∈ s.tasks := List.mem_of_getElem? ht
  have := List.all_eq_true.mp h t hm
  obtain ⟨c, d, p⟩ := t
  cases p with
  | walk => cases this
  | missed => cases this
  | done r =>
    refine ⟨r, rfl, ?_⟩
    unfold Pool.promise
    rw [ht]

theorem pool_kept {H : Hasher} {cfg : Config} {root : CCell} {s : Pool} (hs : PoolOk H cfg root s) (he : s.ended = true) :
    Kept H cfg (tableOf s.tasks) s.pruned s.promise := by
  intro i t d hT
  unfold tableOf at hT
  obtain ⟨u, hu, huv⟩ := Option.map_eq_some_iff.mp hT
  injection huv with e1 e2
  obtain ⟨r, h1, h2⟩ := ended_promise he hu
  refine ⟨r, h2, fun e hr => ?_⟩
  have := (hs.tasks u (List.mem_of_getElem? hu)).phase
  rw [h1, hr, e1, e2] at this
  exact this

/-- What comes out after all tasks have ended. -/
theorem result_spec {H : Hasher} {cfg : Config} {root : CCell} {s : Pool} (hs : PoolOk H cfg root s) (he : s.ended = true) :
    ∃ N r, (∀ n, N ≤ n → s.result H n = some r) ∧ (∀ p, r = .ok p → Good H cfg s.pruned 0 root.tree p) ∧ (∀ x, r = .error x → Bad H cfg root.tree) := by
  have hk := pool_kept hs he
  have herr : ∀ t ∈ s.tasks, ∀ x, t.phase = .done (.error x) → Bad H cfg root.tree := by
    intro t ht x hx
    have := (hs.tasks t ht).phase
    rw [hx] at this
    exact this
  -- the results of the other tasks
  have hbad : ∀ i x, s.promise i = some (.error x) → Bad H cfg root.tree := by
    intro i x h
    unfold Pool.promise at h
    split at h
    · rename_i c d r ht
      injection h with h
      subst h
      exact herr _ (List.mem_of_getElem? ht) x rfl
    · cases h
  by_cases hp : s.tasks.any Task.panicked = true
  · refine ⟨0, .error .panic, fun _ _ => if_pos hp, fun p e => (by cases e), fun x _ => ?_⟩
    obtain ⟨t, ht, hx⟩ := List.any_eq_true.mp hp
    unfold Task.panicked at hx
    split at hx
    · rename_i h
      exact herr t ht _ h
    · cases hx
  · obtain ⟨r, hr, hok⟩ := hk 0 root.tree 0 hs.first
    have hres : ∀ n, s.result H n = match (generalizing := false) r with
        | .error x => some (.error x)
        | .ok e => settle H s.promise n e := by
      intro n
      unfold Pool.result
      rw [if_neg hp, hr]
      cases r <;> rfl
    cases r with
    | error x => exact ⟨0, .error x, fun n _ => hres n, fun p e => (by cases e), fun y _ => hbad 0 x hr⟩
    | ok e =>
      obtain ⟨N, r, h1, h2, h3⟩ := settle_stands hk _ root.tree (Nat.lt_succ_self _) 0 e (hok e rfl).1
      refine ⟨N, r, fun n hn => (hres n).trans (h1 n hn), h2, fun x hx => ?_⟩
      obtain ⟨i, hi⟩ := h3 x hx
      exact hbad i x hi

theorem settleKids_mono {f g : Ext → Option (Except Err CCell)} (h : ∀ e r, f e = some r → g e = some r) : ∀ (es : List Ext) (acc : List CCell) (r : Except Err (List CCell)),
    settleKids f es acc = some r → settleKids g es acc = some r
  | [], acc, r, hr => hr
  | e :: es, acc, r, hr => by
    rw [settleKids] at hr ⊢
    cases hf : f e with
    | none => rw [hf] at hr; cases hr
    | some x =>
      rw [h e x hf]
      rw [hf] at hr
      cases x with
      | error y => exact hr
      | ok c =>
        dsimp only at hr ⊢
        split at hr
        · rename_i hl; rw [if_pos hl]; exact settleKids_mono h es _ r hr
        · rename_i hl; rw [if_neg hl]; exact hr

theorem settle_mono {H : Hasher} {prom : Nat → Option (Except Err Ext)} : ∀ (n : Nat) (e : Ext) (r : Except Err CCell), settle H prom n e = some r →
    ∀ m, n ≤ m → settle H prom m e = some r := by
  intro n
  induction n with
  | zero => intro e r h; cases h
  | succ n ih =>
    intro e r h m hm
    obtain ⟨k, rfl⟩ : ∃ k, m = k + 1 := ⟨m - 1, by omega⟩
    have step : ∀ e r, settle H prom n e = some r → settle H prom k e = some r := fun e r h => ih e r h k (by omega)
    cases e with
    | whole c => exact h
    | parts data x kids =>
      rw [settle] at h ⊢
      cases hk : settleKids (settle H prom n) kids [] with
      | none => rw [hk] at h; cases h
      | some y =>
        rw [settleKids_mono step _ _ _ hk]
        rw [hk] at h
        exact h
    | deferred p =>
      rw [settle] at h ⊢
      cases hp : prom p with
      | none => rw [hp] at h; cases h
      | some y =>
        rw [hp] at h
        cases y with
        | error x => exact h
        | ok e => exact step e r h

theorem result_mono {H : Hasher} {s : Pool} {n m : Nat} (hnm : n ≤ m) {r : Except Err CCell} (h : s.result H n = some r) : s.result H m = some r := by
  unfold Pool.result at h ⊢
  split at h
  · rename_i hp; rw [if_pos hp]; exact h
  · rename_i hp
    rw [if_neg hp]
    cases hq : s.promise 0 with
    | none => rw [hq] at h; cases h
    | some y =>
      rw [hq] at h
      cases y with
      | error x => exact h
      | ok e => exact settle_mono n e r h m hnm

/-! ### The properties -/

/-- The two builders agree: both fail, or both give a cell with the same content (and so the same hashes and depths at every level)
and the same set of pruned hashes. -/
def Agree (r : Except Err (CCell × List Hash)) (q : Except Err (CCell × State)) : Prop :=
  match r, q with
  | .ok (p, S), .ok (c, st) => p.tree = c.tree ∧ (∀ l, p.hash l = c.hash l ∧ p.depth l = c.depth l) ∧ ∀ h, h ∈ S ↔ h ∈ st.pruned
  | .error _, .error _ => True
  | _, _ => False

/-- The result of a run in which all tasks have ended. -/
theorem ended_agrees {H : Hasher} {cfg : Config} {allow : Bool} {root : CCell} (hr : Built H root) (hf : allow = true ∨ cfg.filter root.reprHash ≠ .skip)
    (ho : OneDepth H cfg root.tree) (hcl : ¬ Clash H [root]) {split : List Hash} {sched : List Nat} {s : Pool}
    (hrun : (Pool.start root).run H cfg split sched = some s) (he : s.ended = true) :
    ∃ N r, (∀ n, N ≤ n → s.result H n = some r) ∧ Agree (r.map fun c => (c, s.pruned)) (buildRaw H cfg allow root) := by
  have ha := below_apart (rs := [root]) (by intro r hr'; rw [List.mem_singleton.mp hr']; exact hr) hcl
  have hok := run_ok ha ho sched _ _ (start_pool hr) hrun
  obtain ⟨N, r, h1, h2, h3⟩ := result_spec hok he
  refine ⟨N, r, h1, ?_⟩
  rcases C36_build hr hf ho with h | ⟨g1, g2⟩
  · exact absurd h hcl
  by_cases hbad : Bad H cfg root.tree
  · obtain ⟨e, he⟩ := g2 hbad
    rw [he]
    cases r with
    | ok p => exact absurd hbad (h2 p rfl).good
    | error x => trivial
  · obtain ⟨c, st, e1, e2, e3, _, _, _, e4⟩ := g1 hbad
    rw [e1]
    cases r with
    | error x => exact absurd (h3 x rfl) hbad
    | ok p =>
      have g := h2 p rfl
      have ht : p.tree = c.tree := g.tree.trans e3.symm
      refine ⟨ht, fun l => ?_, fun h => ?_⟩
      · rw [g.built.facts.agrees.hash, g.built.facts.agrees.depth, e2.facts.agrees.hash, e2.facts.agrees.depth, ht]
        exact ⟨rfl, rfl⟩
      · rw [e4 h]
        exact ⟨hok.pruned h, fun ⟨d, x, hx, hh⟩ => hh ▸ g.all d x hx⟩

/-- C84: whatever is split off and in whatever order the tasks take their steps, a complete multithreaded build of a proof agrees
with the single-threaded build, when no included cell occurs at two Merkle depths (and no two cells of the tree have the same hash). -/
theorem C84_proof_partial {H : Hasher} {cfg : Config} {allow : Bool} {root : CCell} (hr : Built H root) (ho : OneDepth H cfg root.tree) (split : List Hash)
    (sched : List Nat) (n : Nat) {r : Except Err (CCell × List Hash)} (h : build H cfg allow split root sched n = some r) :
    Clash H [root] ∨ Agree r (buildRaw H cfg allow root) := by
  refine Classical.byContradiction fun hc => ?_
  obtain ⟨hcl, hna⟩ := not_or.mp hc
  apply hna
  unfold build at h
  by_cases hf : (!allow && cfg.filter root.reprHash == .skip) = true
  · rw [if_pos hf] at h
    injection h with h
    subst h
    unfold buildRaw
    rw [if_pos hf]
    trivial
  · rw [if_neg hf] at h
    have hf' : allow = true ∨ cfg.filter root.reprHash ≠ .skip := by
      cases allow
      · right; intro h; rw [h] at hf; exact hf rfl
      · exact .inl rfl
    cases hrun : (Pool.start root).run H cfg split sched with
    | none => rw [hrun] at h; cases h
    | some s =>
      rw [hrun] at h
      dsimp only at h
      by_cases he : s.ended = true
      · rw [if_pos he] at h
        obtain ⟨N, r', h1, h2⟩ := ended_agrees hr hf' ho hcl hrun he
        obtain ⟨q, hq, hqr⟩ := Option.map_eq_some_iff.mp h
        have : q = r' := by
          have a := result_mono (show n ≤ max n N by omega) hq
          rw [h1 _ (by omega)] at a
          injection a with a
          exact a.symm
        rw [← hqr, this]
        exact h2
      · rw [if_neg he] at h; cases h

/-- C84: every run ends. There is a bound on the number of steps of all runs, and as long as a task has not ended there is a
task that can take a step. -/
theorem C84_ends {H : Hasher} {cfg : Config} (root : CCell) (split : List Hash) : ∃ N, ∀ sched s, (Pool.start root).run H cfg split sched = some s →
    sched.length ≤ N ∧ (s.ended = false → ∃ i s', s.step H cfg split i = some s') := by
  refine ⟨poolWork (Pool.start root), fun sched s h => ⟨by have := run_work _ _ _ h; omega, fun he => ?_⟩⟩
  unfold Pool.ended at he
  obtain ⟨t, ht, hp⟩ := List.all_eq_false.mp he
  obtain ⟨i, hi, hti⟩ := List.mem_iff_getElem.mp ht
  obtain ⟨o, ho⟩ := advance_some (H := H) (cfg := cfg) (split := split) (main := i == 0) (next := s.tasks.length) (cells := s.cells) (pruned := s.pruned)
    (by simpa using hp : t.phase.ended = false)
  refine ⟨i, ⟨o.cells, o.pruned, s.tasks.set i { t with phase := o.phase } ++ (o.spawn.toList.map fun a => Task.start a.1 a.2)⟩, ?_⟩
  unfold Pool.step
  rw [List.getElem?_eq_some_iff.mpr ⟨hi, hti⟩]
  dsimp only
  rw [ho]

/-- C84: after all tasks have ended nothing waits for ever: the build has a result, and no amount of further room changes it. -/
theorem C84_no_wait_partial {H : Hasher} {cfg : Config} {allow : Bool} {root : CCell} (hr : Built H root) (ho : OneDepth H cfg root.tree) {split : List Hash}
    {sched : List Nat} {s : Pool} (hrun : (Pool.start root).run H cfg split sched = some s) (he : s.ended = true) :
    Clash H [root] ∨ ∃ N r, ∀ n, N ≤ n → build H cfg allow split root sched n = some r := by
  refine Classical.byContradiction fun hc => ?_
  obtain ⟨hcl, hna⟩ := not_or.mp hc
  apply hna
  unfold build
  by_cases hf : (!allow && cfg.filter root.reprHash == .skip) = true
  · refine ⟨0, .error .emptyProof, fun n _ => ?_⟩
    rw [if_pos hf]
  · obtain ⟨N, r, h1, _⟩ := ended_agrees (allow := true) hr (.inl rfl) ho hcl hrun he
    refine ⟨N, r.map fun c => (c, s.pruned), fun n hn => ?_⟩
    rw [if_neg hf, hrun]
    dsimp only
    rw [if_pos he, h1 n hn]
    rfl

/-! ### Concrete cases -/

/-- Split at the first reference of the root, run with the schedule, and see whether the cell has the hash of the root at level 0 and
how many hashes were pruned. -/
def splitRun (cfg : Config) (split : List Hash) (root : CCell) (sched : List Nat) : Option (Except Err (Bool × Nat)) :=
  (build toyHasher cfg false split root sched 10).map fun r => r.map fun p => (p.1.hash 0 == root.hash 0, p.2.length)

def firstRef (root : CCell) : CCell := root.refs.getD 0 root

-- the hypotheses of `C84_proof_partial` are met by `demoTree`, with a task split off, for two different schedules
example : (demoTree.map fun root => splitRun (allBut root) [(firstRef root).reprHash] root [0, 0, 0, 0, 0, 0, 1, 1, 1]) = .ok (some (.ok (true, 1))) := by
  decide +kernel
example : (demoTree.map fun root => splitRun (allBut root) [(firstRef root).reprHash] root [0, 0, 1, 0, 1, 0, 1, 0, 0]) = .ok (some (.ok (true, 1))) := by
  decide +kernel
-- a schedule that stops too early is not a complete run
example : (demoTree.map fun root => splitRun (allBut root) [(firstRef root).reprHash] root [0, 0, 1, 0]) = .ok none := by
  decide +kernel

/-- A Merkle cell and its child below the same root. -/
def raceTree : Except Err CCell := do
  let leaf ← mkCell false [true, false] []
  let g ← mkCell false [true] [leaf]
  let c ← mkCell false [false] [g]
  let m ← mkCell true (natBits 8 3 ++ bytesToBits c.reprHash ++ natBits 16 c.reprDepth) [c]
  mkCell false [] [m, c]

/-- Include everything but the child of the second reference of the root. -/
def raceCfg (root : CCell) : Config :=
  ⟨fun h => if h = ((root.refs.getD 1 root).refs.getD 0 root).reprHash then .skip else .incl, false⟩

/-- Finding: when an included cell occurs both inside and outside of a Merkle cell, the result depends on which thread comes first.
The same build gives a cell with the hash of the root (as the single-threaded builder does) or one with another hash. -/
theorem C84_race : (raceTree.map fun root => (splitRun (raceCfg root) [(firstRef root).reprHash] root [0, 0, 1, 1, 1, 1, 1, 1, 0, 0],
      splitRun (raceCfg root) [(firstRef root).reprHash] root [0, 0, 0, 0, 0, 0, 0, 0, 1, 1],
      (buildRaw toyHasher (raceCfg root) false root).map fun p => p.1.hash 0 == root.hash 0)) =
    .ok (some (.ok (true, 1)), some (.ok (false, 1)), .ok true) := by
  decide +kernel

/-! ### Work of `finalize` -/

mutual
/-- The number of cells that `finalize` builds (`merkle/proof.rs:584-604`). -/
def finals : Ext → Nat
  | .parts _ _ kids => finalsList kids + 1
  | _ => 0
def finalsList : List Ext → Nat
  | [] => 0
  | e :: es => finals e + finalsList es
end

/-- A chain of `n` cells above `c`, each with two references to the next one. -/
def chain (c : CCell) : Nat → Except Err CCell
  | 0 => .ok c
  | n + 1 => do
    let d ← chain c n
    mkCell false (natBits 8 n) [d, d]

/-- The chain with a task at the bottom, as the builder leaves it. -/
def chainExt : Nat → Ext
  | 0 => .deferred 1
  | n + 1 => .parts (DataBuilder.new.storeRaw (builderOf false (natBits 8 n) []).inner.data 8).2 false [chainExt n, chainExt n]

/-- Finding: `finalize` does not remember cells that it has built, so its work is exponential in the number of cells. -/
theorem C84_exponential (n : Nat) : finals (chainExt n) = 2 ^ n - 1 := by
  induction n with
  | zero => rfl
  | succ n ih =>
    rw [chainExt, finals, finalsList, finalsList, finalsList, ih]
    have := Nat.one_le_two_pow (n := n)
    rw [Nat.pow_succ]
    omega

/-- A run of the first task and then of the second. -/
def stepsOf (H : Hasher) (cfg : Config) (split : List Hash) (i : Nat) : Nat → Pool → Pool
  | 0, s => s
  | n + 1, s => match s.step H cfg split i with
    | some s' => stepsOf H cfg split i n s'
    | none => s

-- eight distinct cells, seven above the split one: 127 cells are built
example : (match mkCell false [true] [] >>= fun leaf => (chain leaf 7).map fun root =>
      (stepsOf toyHasher ⟨fun _ => .incl, false⟩ [leaf.reprHash] 0 100 (Pool.start root)).promise 0 with
    | .ok (some (.ok e)) => finals e
    | _ => 0) = 2 ^ 7 - 1 := by
  decide +kernel

end Par
end Merkle
end Verif
