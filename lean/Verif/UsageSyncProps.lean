import Verif.UsageSyncLemmas
/-
What several threads see of tracked cells and of the usage tree, under every schedule.
-/
set_option linter.unusedVariables false
namespace Verif
namespace Usage
namespace Sync

/-! ### Lemmas -/

/-- A step of a thread changes only its own place, and keeps the operation until it returns. -/
theorem exec_busy (s : State) (t : Nat) (o : Op) (pc : Pc) (hb : s.busy t = some (o, pc)) :
    (∀ u, u ≠ t → (s.exec t o pc).busy u = s.busy u) ∧ ((s.exec t o pc).busy t = none ∨ ∃ pc', (s.exec t o pc).busy t = some (o, pc')) := by
  have go : ∀ (s' : State) (pc' : Pc), s'.busy = s.busy → (∀ u, u ≠ t → (s'.go t o pc').busy u = s.busy u) ∧ ((s'.go t o pc').busy t = none ∨ ∃ pc'', (s'.go t o pc').busy t = some (o, pc'')) :=
    fun s' pc' h => ⟨fun u hu => by rw [← h]; exact if_neg hu, Or.inr ⟨pc', if_pos rfl⟩⟩
  have same : (∀ u, u ≠ t → s.busy u = s.busy u) ∧ (s.busy t = none ∨ ∃ pc', s.busy t = some (o, pc')) := ⟨fun _ _ => rfl, Or.inr ⟨pc, hb⟩⟩
  have cell : ∀ (s' : State) (k : Option Nat), s'.busy = s.busy → (∀ u, u ≠ t → (s'.retCell t o k).busy u = s.busy u) ∧ ((s'.retCell t o k).busy t = none ∨ ∃ pc'', (s'.retCell t o k).busy t = some (o, pc'')) :=
    fun s' k h => ⟨fun u hu => by rw [← h]; exact if_neg hu, Or.inl (if_pos rfl)⟩
  have data : ∀ (s' : State) (id : Nat), s'.busy = s.busy → (∀ u, u ≠ t → (s'.retData t o id).busy u = s.busy u) ∧ ((s'.retData t o id).busy t = none ∨ ∃ pc'', (s'.retData t o id).busy t = some (o, pc'')) :=
    fun s' k h => ⟨fun u hu => by rw [← h]; exact if_neg hu, Or.inl (if_pos rfl)⟩
  cases pc with
  | track c => exact go _ _ rfl
  | wrap c => exact cell _ _ rfl
  | once i id =>
    unfold State.exec
    dsimp only
    cases s.slot id i with
    | fresh => exact go _ _ rfl
    | running u => exact same
    | done k => exact go _ _ rfl
  | closure i id =>
    unfold State.exec
    dsimp only
    cases s.cells[id]? with
    | none => exact same
    | some c =>
      dsimp only
      cases c.refs[i]? with
      | none => exact go _ _ rfl
      | some d => exact go _ _ rfl
  | read i id ins =>
    unfold State.exec
    dsimp only
    cases s.slot id i with
    | fresh => exact same
    | running u => exact same
    | done k =>
      dsimp only
      cases ins with
      | true =>
        rw [if_pos rfl]
        cases k.bind (s.cells[·]?) with
        | none => exact go _ _ rfl
        | some d => exact go _ _ rfl
      | false => exact cell _ _ rfl
  | flag id =>
    unfold State.exec
    dsimp only
    by_cases h : s.flag id = true
    · rw [if_pos h]; exact data _ _ rfl
    · rw [if_neg h]; exact go _ _ rfl
  | insert id =>
    unfold State.exec
    dsimp only
    cases s.cells[id]? with
    | none => exact same
    | some c => exact go _ _ rfl
  | set id => exact data _ _ rfl

theorem call_busy (s : State) (t : Nat) (o : Op) (hb : s.busy t = none) :
    (∀ u, u ≠ t → (s.call t o).busy u = s.busy u) ∧ ((s.call t o).busy t = none ∨ ∃ pc', (s.call t o).busy t = some (o, pc')) := by
  have go : ∀ (pc' : Pc), (∀ u, u ≠ t → (s.go t o pc').busy u = s.busy u) ∧ ((s.go t o pc').busy t = none ∨ ∃ pc'', (s.go t o pc').busy t = some (o, pc'')) :=
    fun pc' => ⟨fun u hu => if_neg hu, Or.inr ⟨pc', if_pos rfl⟩⟩
  have ret : ∀ (out : Out), (∀ u, u ≠ t → (s.ret t o out).busy u = s.busy u) ∧ ((s.ret t o out).busy t = none ∨ ∃ pc'', (s.ret t o out).busy t = some (o, pc'')) :=
    fun out => ⟨fun u hu => if_neg hu, Or.inl (if_pos rfl)⟩
  cases o with
  | track c => exact go _
  | load r i =>
    unfold State.call
    dsimp only
    cases s.reg r with
    | none => exact ret (.cell false)
    | some id =>
      dsimp only
      by_cases h : i < 4
      · rw [if_pos h]; exact go _
      · rw [if_neg h]; exact ret (.cell false)
  | data r =>
    unfold State.call
    dsimp only
    cases s.reg r with
    | none => exact ret _
    | some id => exact go _
  | info r l => exact ret _
  | untrack r => exact ret _
  | drop => exact ⟨fun _ _ => rfl, Or.inl hb⟩

/-- The cells that are being tracked are proper cells. -/
def Owned (H : Hasher) (s : State) : Prop := ∀ t o pc, s.busy t = some (o, pc) → ∀ c, o = .track c → Built H c

theorem act_good {H : Hasher} {s : State} (g : Good H s) (w : Owned H s) {a : Act} (ha : ∀ t c, a = .call t (.track c) → Built H c) : Good H (s.act a) ∧ Owned H (s.act a) := by
  cases a with
  | call t o =>
    unfold State.act
    dsimp only
    cases hb : s.busy t with
    | some x => exact ⟨g, w⟩
    | none =>
      have hc : ∀ c, o = .track c → Built H c := fun c e => ha t c (by rw [e])
      refine ⟨g.call hb hc, fun u o' pc' h1 => ?_⟩
      obtain ⟨h2, h3⟩ := call_busy s t o hb
      by_cases hu : u = t
      · subst hu
        rcases h3 with h3 | ⟨pc'', h3⟩
        · have h1 : (s.call u o).busy u = _ := h1
          rw [h3] at h1; cases h1
        · have h1 : (s.call u o).busy u = _ := h1
          rw [h3] at h1
          injection h1 with h1
          injection h1 with h1
          rw [← h1]; exact hc
      · exact w u o' pc' ((h2 u hu).symm.trans h1)
  | step t =>
    unfold State.act
    dsimp only
    cases hb : s.busy t with
    | none => exact ⟨g, w⟩
    | some x =>
      obtain ⟨o, pc⟩ := x
      have hc := w t o pc hb
      refine ⟨g.exec hb hc, fun u o' pc' h1 => ?_⟩
      obtain ⟨h2, h3⟩ := exec_busy s t o pc hb
      by_cases hu : u = t
      · subst hu
        rcases h3 with h3 | ⟨pc'', h3⟩
        · have h1 : (s.exec u o pc).busy u = _ := h1
          rw [h3] at h1; cases h1
        · have h1 : (s.exec u o pc).busy u = _ := h1
          rw [h3] at h1
          injection h1 with h1
          injection h1 with h1
          rw [← h1]; exact hc
      · exact w u o' pc' ((h2 u hu).symm.trans h1)

theorem run_good {H : Hasher} : ∀ (as : List Act) {s : State}, Good H s → Owned H s → (∀ t c, Act.call t (.track c) ∈ as → Built H c) → Good H (s.run as) ∧ Owned H (s.run as)
  | [], s, g, w, _ => ⟨g, w⟩
  | a :: as, s, g, w, ha => by
    obtain ⟨g1, w1⟩ := act_good g w (a := a) fun t c e => ha t c (by rw [e]; exact List.mem_cons_self)
    exact run_good as g1 w1 fun t c h => ha t c (List.mem_cons_of_mem _ h)

theorem start_good (H : Hasher) (onLoad : Bool) : Good H (State.start onLoad) ∧ Owned H (State.start onLoad) := by
  refine ⟨⟨⟨⟨rfl, rfl, fun c h => (nomatch h), rfl, fun k h => (nomatch h), fun id i k h => (nomatch h), fun h _ => h, fun h id h2 => ?_⟩, fun t o pc h => (nomatch h), fun id i t h => (nomatch h),
    fun _ id i k d h => (nomatch h), fun h hh => (nomatch hh), fun h hh => (nomatch hh)⟩, rfl⟩, fun t o pc h => (nomatch h)⟩
  have h2 : onLoad = true := h2
  have h : onLoad = false := h
  rw [h] at h2; cases h2

theorem exec_mode (s : State) (t : Nat) (o : Op) (pc : Pc) : (s.exec t o pc).onLoad = s.onLoad := by
  cases pc with
  | once i id => unfold State.exec; dsimp only; cases s.slot id i <;> rfl
  | closure i id =>
    unfold State.exec
    dsimp only
    cases s.cells[id]? with
    | none => rfl
    | some c => dsimp only; cases c.refs[i]? <;> rfl
  | read i id ins =>
    unfold State.exec
    dsimp only
    cases s.slot id i with
    | fresh => rfl
    | running u => rfl
    | done k =>
      dsimp only
      cases ins with
      | false => rfl
      | true => rw [if_pos rfl]; cases k.bind (s.cells[·]?) <;> rfl
  | flag id => unfold State.exec; dsimp only; by_cases h : s.flag id = true <;> simp only [h, if_true, if_false, Bool.false_eq_true] <;> rfl
  | insert id => unfold State.exec; dsimp only; cases s.cells[id]? <;> rfl
  | _ => rfl

theorem call_mode (s : State) (t : Nat) (o : Op) : (s.call t o).onLoad = s.onLoad := by
  cases o with
  | load r i =>
    unfold State.call
    dsimp only
    cases s.reg r with
    | none => rfl
    | some id => dsimp only; by_cases h : i < 4 <;> simp only [h, if_true, if_false] <;> rfl
  | data r => unfold State.call; dsimp only; cases s.reg r <;> rfl
  | _ => rfl

theorem act_mode (s : State) (a : Act) : (s.act a).onLoad = s.onLoad := by
  cases a with
  | call t o =>
    unfold State.act
    dsimp only
    cases s.busy t with
    | none => exact call_mode s t o
    | some x => rfl
  | step t =>
    unfold State.act
    dsimp only
    cases s.busy t with
    | none => rfl
    | some x => exact exec_mode s t x.1 x.2

theorem run_mode : ∀ (as : List Act) (s : State), (s.run as).onLoad = s.onLoad
  | [], s => rfl
  | a :: as, s => (run_mode as (s.act a)).trans (act_mode s a)

theorem run_append : ∀ (as bs : List Act) (s : State), s.run (as ++ bs) = (s.run as).run bs
  | [], bs, s => rfl
  | a :: as, bs, s => run_append as bs (s.act a)

/-- The steps a thread has to make before its operation returns, apart from waiting. -/
def rank : Option (Op × Pc) → Nat
  | none => 0
  | some (_, .track _) => 2
  | some (_, .wrap _) => 1
  | some (_, .once _ _) => 4
  | some (_, .closure _ _) => 3
  | some (_, .read _ _ true) => 2
  | some (_, .read _ _ false) => 1
  | some (_, .flag _) => 3
  | some (_, .insert _) => 2
  | some (_, .set _) => 1

theorem go_rank (s : State) (t : Nat) (o : Op) (pc : Pc) : rank ((s.go t o pc).busy t) = rank (some (o, pc)) := congrArg rank (if_pos rfl)

theorem ret_rank (s : State) (t : Nat) (o : Op) (out : Out) : rank ((s.ret t o out).busy t) = 0 := congrArg rank (if_pos rfl)

theorem progress {H : Hasher} {s : State} (g : Good H s) {t : Nat} {o : Op} {pc : Pc} (hb : s.busy t = some (o, pc)) :
    ∃ u o' pc', s.busy u = some (o', pc') ∧ rank ((s.exec u o' pc').busy u) < rank (s.busy u) := by
  have closure : ∀ (u : Nat) (o' : Op) (i id : Nat), s.busy u = some (o', .closure i id) → rank ((s.exec u o' (.closure i id)).busy u) < rank (s.busy u) := by
    intro u o' i id hu
    obtain ⟨⟨_, r, rfl, hr⟩, _⟩ := g.1.pcs u o' _ hu
    obtain ⟨c, hc, _⟩ := g.1.core.cellOf hr
    rw [hu]
    unfold State.exec
    dsimp only
    rw [hc]
    dsimp only
    cases c.refs[i]? with
    | none => rw [go_rank]; simp [rank]
    | some d => rw [go_rank]; cases s.onLoad <;> simp [rank]
  have hp := g.1.pcs t o pc hb
  cases pc with
  | track c => exact ⟨t, _, _, hb, by rw [hb]; unfold State.exec; dsimp only; rw [go_rank]; simp [rank]⟩
  | wrap c => exact ⟨t, _, _, hb, by rw [hb]; unfold State.exec State.retCell; dsimp only; rw [ret_rank]; simp [rank]⟩
  | once i id =>
    cases hs : s.slot id i with
    | fresh => exact ⟨t, _, _, hb, by rw [hb]; unfold State.exec; dsimp only; rw [hs]; dsimp only; rw [go_rank]; simp [rank]⟩
    | running u =>
      obtain ⟨o', hu⟩ := g.1.runs id i u hs
      exact ⟨u, o', _, hu, closure u o' i id hu⟩
    | done k => exact ⟨t, _, _, hb, by rw [hb]; unfold State.exec; dsimp only; rw [hs]; dsimp only; rw [go_rank]; simp [rank]⟩
  | closure i id => exact ⟨t, o, _, hb, closure t o i id hb⟩
  | read i id ins =>
    obtain ⟨_, k, hs, _⟩ := hp
    refine ⟨t, _, _, hb, ?_⟩
    rw [hb]
    unfold State.exec
    dsimp only
    rw [hs]
    dsimp only
    cases ins with
    | true =>
      rw [if_pos rfl]
      cases k.bind (s.cells[·]?) with
      | none => dsimp only; rw [go_rank]; simp [rank]
      | some d => dsimp only; rw [go_rank]; simp [rank]
    | false => rw [if_neg (by decide)]; unfold State.retCell; dsimp only; rw [ret_rank]; simp [rank]
  | flag id =>
    refine ⟨t, _, _, hb, ?_⟩
    rw [hb]
    unfold State.exec
    dsimp only
    by_cases h : s.flag id = true
    · rw [if_pos h]; unfold State.retData; rw [ret_rank]; simp [rank]
    · rw [if_neg h, go_rank]; simp [rank]
  | insert id =>
    obtain ⟨⟨r, rfl, hr⟩, _⟩ := hp
    obtain ⟨c, hc, _⟩ := g.1.core.cellOf hr
    refine ⟨t, _, _, hb, ?_⟩
    rw [hb]
    unfold State.exec
    dsimp only
    rw [hc]
    dsimp only
    rw [go_rank]; simp [rank]
  | set id => exact ⟨t, _, _, hb, by rw [hb]; unfold State.exec State.retData; dsimp only; rw [ret_rank]; simp [rank]⟩

theorem rank_zero {x : Option (Op × Pc)} (h : rank x = 0) : x = none := by
  cases x with
  | none => rfl
  | some x =>
    obtain ⟨o, pc⟩ := x
    cases pc with
    | read i id ins => cases ins <;> cases h
    | _ => cases h

theorem sum_lt {f g : Nat → Nat} {u : Nat} : ∀ (ts : List Nat), u ∈ ts → f u < g u → (∀ v, v ≠ u → f v = g v) → (ts.map f).sum < (ts.map g).sum := by
  intro ts hu hlt hsame
  have hle : ∀ v, f v ≤ g v := fun v => by
    by_cases hv : v = u
    · subst hv; omega
    · rw [hsame v hv]
  have hsum : ∀ l : List Nat, (l.map f).sum ≤ (l.map g).sum := by
    intro l
    induction l with
    | nil => exact Nat.le_refl _
    | cons a l ih =>
      rw [List.map_cons, List.map_cons, List.sum_cons, List.sum_cons]
      have := hle a
      omega
  induction ts with
  | nil => cases hu
  | cons a l ih =>
    rw [List.map_cons, List.map_cons, List.sum_cons, List.sum_cons]
    by_cases ha : a = u
    · subst ha
      have := hsum l
      omega
    · have h1 := ih (by
        rcases List.mem_cons.mp hu with h | h
        · exact absurd h.symm ha
        · exact h)
      rw [hsame a ha]
      omega

theorem finish {H : Hasher} : ∀ (n : Nat) (s : State) (ts : List Nat), Good H s → Owned H s → (∀ t, s.busy t ≠ none → t ∈ ts) → (ts.map fun t => rank (s.busy t)).sum ≤ n →
    ∃ us : List Nat, (s.run (us.map Act.step)).Idle := by
  intro n
  induction n with
  | zero =>
    intro s ts g w hts hs
    refine ⟨[], fun t => Classical.byContradiction fun hn => ?_⟩
    have hn : s.busy t ≠ none := hn
    have hm := hts t hn
    have : ∀ (l : List Nat), t ∈ l → (l.map fun t => rank (s.busy t)).sum ≤ 0 → rank (s.busy t) = 0 := by
      intro l
      induction l with
      | nil => intro h; cases h
      | cons a l ih =>
        intro h h2
        rw [List.map_cons, List.sum_cons] at h2
        rcases List.mem_cons.mp h with rfl | h
        · omega
        · exact ih h (by omega)
    exact hn (rank_zero (this ts hm hs))
  | succ n ih =>
    intro s ts g w hts hs
    by_cases hi : ∀ t, s.busy t = none
    · exact ⟨[], hi⟩
    · obtain ⟨t, ht⟩ := Classical.not_forall.mp hi
      cases hb : s.busy t with
      | none => exact absurd hb ht
      | some x =>
        obtain ⟨o, pc⟩ := x
        obtain ⟨u, o', pc', hu, hlt⟩ := progress g hb
        obtain ⟨h1, h2⟩ := exec_busy s u o' pc' hu
        have hact : s.act (.step u) = s.exec u o' pc' := by
          unfold State.act
          dsimp only
          rw [hu]
        obtain ⟨g1, w1⟩ := act_good g w (a := .step u) (fun t c e => nomatch e)
        rw [hact] at g1 w1
        have hlt2 := sum_lt (f := fun t => rank ((s.exec u o' pc').busy t)) (g := fun t => rank (s.busy t)) ts (hts u (by rw [hu]; exact fun h => nomatch h)) hlt
          (fun v hv => by show rank _ = rank _; rw [h1 v hv])
        obtain ⟨us, hus⟩ := ih (s.exec u o' pc') ts g1 w1 (fun v hv => by
          by_cases hvu : v = u
          · subst hvu; exact hts v (by rw [hu]; exact fun h => nomatch h)
          · rw [h1 v hvu] at hv; exact hts v hv) (by omega)
        refine ⟨u :: us, ?_⟩
        show ((s.act (.step u)).run (us.map Act.step)).Idle
        rw [hact]
        exact hus

/-- The threads of a schedule. -/
def threads : List Act → List Nat
  | [] => []
  | .call t _ :: as => t :: threads as
  | .step t :: as => t :: threads as

theorem run_threads : ∀ (as : List Act) (s : State) (t : Nat), (s.run as).busy t ≠ none → s.busy t ≠ none ∨ t ∈ threads as
  | [], s, t, h => Or.inl h
  | a :: as, s, t, h => by
    rcases run_threads as (s.act a) t h with h1 | h1
    · cases a with
      | call u o =>
        by_cases hu : t = u
        · exact Or.inr (by rw [hu]; exact List.mem_cons_self)
        · left
          unfold State.act at h1
          dsimp only at h1
          cases hb : s.busy u with
          | some x => rw [hb] at h1; exact h1
          | none =>
            rw [hb] at h1
            dsimp only at h1
            rw [(call_busy s u o hb).1 t hu] at h1
            exact h1
      | step u =>
        by_cases hu : t = u
        · exact Or.inr (by rw [hu]; exact List.mem_cons_self)
        · left
          unfold State.act at h1
          dsimp only at h1
          cases hb : s.busy u with
          | none => rw [hb] at h1; exact h1
          | some x =>
            obtain ⟨o, pc⟩ := x
            rw [hb] at h1
            dsimp only at h1
            rw [(exec_busy s u o pc hb).1 t hu] at h1
            exact h1
    · refine Or.inr ?_
      cases a with
      | call u o => exact List.mem_cons_of_mem _ h1
      | step u => exact List.mem_cons_of_mem _ h1

/-! ### Property theorems -/

/-- C39 with threads. Whatever threads do with tracked cells, in whatever order their steps are taken: the operations give, in the order of their returns,
exactly the results of the plain cells; every cell in the tree was met by an operation that returned or is running; every cell met by an operation that returned is in
the tree, unless another thread is just loading it; and when no operation is running, the tree contains exactly the cells met. -/
theorem C39_threads {H : Hasher} (onLoad : Bool) (acts : List Act) (hb : ∀ t c, Act.call t (.track c) ∈ acts → Built H c) :
    let s := (State.start onLoad).run acts
    let p := ((Plain.start onLoad).run s.ops).1
    s.outs = ((Plain.start onLoad).run s.ops).2 ∧
    (∀ h, s.contains h = true → h ∈ p.seen ∨ ∃ t o pc, s.busy t = some (o, pc) ∧ h ∈ (p.step o).1.seen) ∧
    (∀ h ∈ p.seen, s.contains h = true ∨ (onLoad = true ∧ ∃ t r i pc, s.busy t = some (.load r i, pc) ∧ h ∈ (p.step (.load r i)).1.seen)) ∧
    (s.Idle → ∀ h, s.contains h = true ↔ h ∈ p.seen) := by
  intro s p
  obtain ⟨g0, w0⟩ := start_good H onLoad
  obtain ⟨⟨g, hout⟩, _⟩ := run_good acts g0 w0 hb
  have hmode : s.onLoad = onLoad := run_mode acts _
  have hp : s.plain = p := by
    unfold State.plain
    rw [hmode]
  have g : Inv H s p := by rw [← hp]; exact g
  have hout : s.outs = ((Plain.start onLoad).run s.ops).2 := by rw [← hmode]; exact hout
  have hc : ∀ h, s.contains h = true ↔ h ∈ s.visited := fun h => decide_eq_true_iff
  have late : ∀ h, (∃ t, LateBy s t h) → onLoad = true ∧ ∃ t r i pc, s.busy t = some (.load r i, pc) ∧ h ∈ (p.step (.load r i)).1.seen := by
    rintro h ⟨t, o, i, id, k, d, h1, h2, h3, rfl⟩
    obtain ⟨⟨_, r, rfl, hr⟩, k', h4, h5⟩ := g.pcs t o _ h1
    have hl := (h5 rfl).1
    refine ⟨hmode.symm.trans hl, t, r, i, _, h1, ?_⟩
    rw [(step_facts g.core.alive (o := .load r i) (fun x => x)).1]
    refine List.mem_append_left _ ?_
    obtain ⟨c, hcc, hpr, _⟩ := g.core.cellOf hr
    obtain ⟨c', g1, g2, _⟩ := g.core.slots id i (some k) h2
    rw [hcc] at g1
    injection g1 with g1
    subst g1
    simp only [hashOf, hpr]
    rw [if_pos (g.core.mode.trans hl)]
    show _ ∈ (Option.map CCell.reprHash (c.refs[i]?)).toList
    rw [g2]
    show _ ∈ (Option.map CCell.reprHash (s.cells[k]?)).toList
    rw [h3]
    exact List.mem_singleton.mpr rfl
  refine ⟨hout, ?_, ?_, ?_⟩
  · intro h hh
    rcases g.high h ((hc h).mp hh) with h1 | ⟨t, o, pc, h1, h2⟩
    · exact Or.inl h1
    · refine Or.inr ⟨t, o, pc, h1, ?_⟩
      rw [(step_facts g.core.alive ((g.pcs t o pc h1).bound g.core).1).1]
      exact List.mem_append_left _ h2
  · intro h hh
    rcases g.low h hh with h1 | h1
    · exact Or.inl ((hc h).mpr h1)
    · exact Or.inr (late h h1)
  · intro hi h
    constructor
    · intro hh
      rcases g.high h ((hc h).mp hh) with h1 | ⟨t, o, pc, h1, _⟩
      · exact h1
      · rw [hi t] at h1; cases h1
    · intro hh
      rcases g.low h hh with h1 | ⟨t, o, i, id, k, d, h1, _⟩
      · exact (hc h).mpr h1
      · rw [hi t] at h1; cases h1

/-- No deadlock: from wherever a schedule has led, the threads can be run until all their operations have returned. -/
theorem C39_threads_end {H : Hasher} (onLoad : Bool) (acts : List Act) (hb : ∀ t c, Act.call t (.track c) ∈ acts → Built H c) :
    ∃ us : List Nat, ((State.start onLoad).run (acts ++ us.map Act.step)).Idle := by
  obtain ⟨g0, w0⟩ := start_good H onLoad
  obtain ⟨g, w⟩ := run_good acts g0 w0 hb
  obtain ⟨us, hus⟩ := finish _ _ (threads acts) g w (fun t ht => by
    rcases run_threads acts _ t ht with h | h
    · exact absurd rfl h
    · exact h) (Nat.le_refl _)
  exact ⟨us, by rw [run_append]; exact hus⟩

/-! ### Concrete cases -/

/-- Two threads load the same reference of a tracked cell; the first one is stopped before it inserts the child. -/
def race (old : CCell) : List Act :=
  [.call 0 (.track old), .step 0, .step 0, .call 0 (.load 0 0), .call 1 (.load 0 0), .step 0, .step 1, .step 0, .step 1, .step 1]

/-- The second thread gets the child and reads it before the tree contains it (finding): only after the first thread has finished too, the
tree contains the child. -/
theorem C39_threads_late :
    (match chain with
      | .ok (old, _) =>
        let s := (State.start true).run (race old)
        let child := (old.refs.getD 0 old).reprHash
        decide (s.regs = [some 0, some 1]) && decide (s.log.length = 2) && !s.contains child && decide (child ∈ ((Plain.start true).run s.ops).1.seen) &&
          (s.run [.step 0]).contains child && decide ((s.run [.step 0, .step 0]).regs = [some 0, some 1, some 1])
      | .error _ => false) = true := by decide +kernel

/-- While a thread runs the closure of a `Once` the other waits. -/
example : (match chain with
      | .ok (old, _) =>
        let s := (State.start true).run ((race old).take 6)
        let s1 := s.run [.step 1, .step 1, .step 1]
        (match s1.busy 1 with | some (_, .once _ _) => true | _ => false) && decide (s1.log.length = 1)
      | .error _ => false) = true := by decide +kernel

end Sync
end Usage
end Verif
