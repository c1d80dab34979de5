/-
C85: cells that several threads share, with weak handles, are released safely and completely under every schedule.
-/
import Verif.CellDropParSteps
set_option linter.unusedVariables false
namespace Verif.DropPar

/-! ### The invariant of states -/

structure Inv (s : State) : Prop where
  core : Core s.heap (fun x => s.held.count x + (s.threads.flatMap stackH).count x) (fun x => s.held.count x) (fun x => s.weaks.count x)
  stacks : ∀ st ∈ s.threads, StackOk s.heap st
  weaks : ∀ a ∈ s.weaks, a < s.heap.length

theorem inv_init : Inv State.init := by
  refine ⟨⟨fun a => ?_, ?_, ?_, ?_, ?_, ?_, fun _ => 0, ?_⟩, fun st m => (by cases m), fun a m => (by cases m)⟩
  · simp [State.init, strongAt, indeg]
  all_goals
    intro a n l
    simp [Live, State.init] at l

/-- Handles that are moved around outside of memory, and weak handles of cells that are gone. -/
theorem Core.moved {h : Heap} {H E W H' E' W' : Nat → Nat} (c : Core h H E W) (hH : ∀ x, H' x = H x) (hE : ∀ x, E' x ≤ E x) (hW : ∀ x n, Live h x n → W' x = W x) : Core h H' E' W' := by
  refine ⟨fun a => by rw [hH]; exact c.count a, c.pos, c.shape, fun a n l => by rw [hW a n l]; exact c.weak a n l, fun a n l d => ?_, c.turned, c.rank⟩
  obtain ⟨d1, d2, d3, d4⟩ := c.dirty a n l d
  exact ⟨d1, by have := hE a; omega, by rw [hW a n l]; exact d3, d4⟩

theorem live_append {h : Heap} {n m : Node} {a : Nat} : Live (h ++ [some n]) a m ↔ Live h a m ∨ (a = h.length ∧ m = n) := by
  unfold Live
  by_cases l : a < h.length
  · rw [List.getElem?_append_left l]
    constructor
    · exact .inl
    · rintro (q | ⟨e, _⟩)
      · exact q
      · omega
  · rw [List.getElem?_append_right (by omega)]
    by_cases e : a = h.length
    · subst e
      simp [eq_comm]
    · have z : ∃ k, a - h.length = k + 1 := ⟨a - h.length - 1, by omega⟩
      obtain ⟨k, hk⟩ := z
      rw [hk]
      have z2 : h[a]? = none := List.getElem?_eq_none (by omega)
      simp [z2, e]

theorem Core.cleanHeld {h : Heap} {H E W : Nat → Nat} (c : Core h H E W) {a : Nat} {n : Node} (l : Live h a n) (p : 0 < E a ∨ 0 < W a) : n.clean :=
  Classical.byContradiction fun d => by
    obtain ⟨_, d2, d3, _⟩ := c.dirty a n l d
    omega

theorem clean_owned {n : Node} (c : n.clean) : n.owned = n.refs := by
  unfold Node.owned
  rw [c.2.2.1, c.2.1]
  simp

/-- A new cell takes the given handles. -/
theorem Core.new {h : Heap} {H E W H' E' : Nat → Nat} (c : Core h H E W) (as : List Nat) (hE : ∀ x, E x = as.count x + (E' x - cnt1 h.length x)) (hl : ∀ x, cnt1 h.length x ≤ E' x)
    (hH : ∀ x, H x + cnt1 h.length x = as.count x + H' x) (hEH : ∀ x, E x ≤ H x) (hW : W h.length = 0) :
    Core (h ++ [some ⟨as, as.length, false, 1, 0, as, false⟩]) H' E' W := by
  have cn : Node.clean ⟨as, as.length, false, 1, 0, as, false⟩ := ⟨rfl, rfl, rfl, rfl⟩
  have eo : Node.owned ⟨as, as.length, false, 1, 0, as, false⟩ = as := clean_owned cn
  have fresh : strongAt h h.length = 0 := by simp [strongAt]
  have z := c.count h.length
  have asl : ∀ x ∈ as, 0 < E x := fun x m => by have := List.count_pos_iff.mpr m; have := hE x; omega
  have nl : h.length ∉ as := fun m => by
    have := asl _ m
    have := hEH h.length
    omega
  have no : ∀ a n, Live h a n → h.length ∉ n.owned := fun a n l m => by have := indeg_pos l m; omega
  constructor
  · intro a
    have e1 : indeg (h ++ [some ⟨as, as.length, false, 1, 0, as, false⟩]) a = indeg h a + as.count a := by
      unfold indeg
      rw [List.flatMap_append, List.count_append]
      simp [own, eo]
    rw [e1]
    have k := hH a
    by_cases e : a = h.length
    · subst e
      have e2 : strongAt (h ++ [some ⟨as, as.length, false, 1, 0, as, false⟩]) h.length = 1 := by simp [strongAt]
      rw [e2]
      have := List.count_eq_zero.mpr nl
      rw [cnt1_self] at k
      omega
    · have e2 : strongAt (h ++ [some ⟨as, as.length, false, 1, 0, as, false⟩]) a = strongAt h a := by
        unfold strongAt
        by_cases l : a < h.length
        · rw [List.getElem?_append_left l]
        · rw [List.getElem?_eq_none (l := h) (by omega), List.getElem?_eq_none (by simp; omega)]
      rw [e2, c.count a]
      rw [cnt1_ne e] at k
      omega
  · intro a n l
    rcases live_append.mp l with l | ⟨_, e⟩
    · exact c.pos a n l
    · subst e; exact Nat.one_pos
  · intro a n l
    rcases live_append.mp l with l | ⟨_, e⟩
    · exact c.shape a n l
    · subst e; exact Nat.le_refl _
  · intro a n l
    rcases live_append.mp l with l | ⟨e', e⟩
    · exact c.weak a n l
    · subst e e'; exact hW.symm
  · intro a n l d
    rcases live_append.mp l with l | ⟨e', e⟩
    · obtain ⟨d1, d2, d3, d4⟩ := c.dirty a n l d
      have ne : a ≠ h.length := by have := live_lt l; omega
      refine ⟨d1, by have := hE a; rw [cnt1_ne ne] at this; omega, d3, fun b m lb o => ?_⟩
      rcases live_append.mp lb with lb | ⟨_, e⟩
      · exact d4 b m lb o
      · subst e
        rw [eo] at o
        have := asl a o
        omega
    · subst e; exact absurd cn d
  · intro b m lb x k lx t
    rcases live_append.mp lx with lx | ⟨_, e⟩
    · rcases live_append.mp lb with lb | ⟨_, e⟩
      · exact c.turned b m lb x k lx t
      · subst e
        have : x ∉ Node.owned ⟨as, as.length, false, 1, 0, as, false⟩ := fun o => by
          rw [eo] at o
          exact not_clean_of_turned t (c.cleanHeld lx (.inl (asl x o)))
        exact ⟨fun o => this (others_owned o), fun o => absurd o this⟩
    · subst e; cases t
  · obtain ⟨r, hr⟩ := c.rank
    refine ⟨fun x => if x = h.length then 1 + (as.map r).sum else r x, fun b m lb y my => ?_⟩
    dsimp only
    rcases live_append.mp lb with lb | ⟨e', e⟩
    · have nb : b ≠ h.length := by have := live_lt lb; omega
      have ny : y ≠ h.length := fun e => no b m lb (e ▸ my)
      rw [if_neg nb, if_neg ny]
      exact hr b m lb y my
    · subst e e'
      rw [eo] at my
      have ny : y ≠ h.length := fun e => nl (e ▸ my)
      rw [if_neg ny, if_pos rfl]
      have := count_sum_rank r as y my
      omega

theorem giveAway_count : ∀ (as l l' : List Nat), giveAway as l = some l' → ∀ x, l.count x = as.count x + l'.count x := by
  intro as
  induction as with
  | nil =>
    intro l l' e x
    injection e with e
    subst e
    simp
  | cons a as ih =>
    intro l l' e x
    unfold giveAway at e
    split at e
    · rename_i m
      have := ih _ _ e x
      rw [List.count_erase] at this
      rw [count_cons1]
      unfold cnt1
      by_cases ex : x = a
      · subst ex
        have p := List.count_pos_iff.mpr m
        simp at this
        simp
        omega
      · rw [if_neg (by simpa using fun e => ex e.symm)] at this
        rw [if_neg ex]
        omega
    · cases e

theorem count_erase1 {l : List Nat} {a : Nat} (m : a ∈ l) (x : Nat) : l.count x = cnt1 a x + (l.erase a).count x := by
  have := giveAway_count [a] l (l.erase a) (by simp [giveAway, m]) x
  rw [count_cons1, List.count_nil] at this
  omega

theorem mem_set_cases {α : Type} {l : List α} {t : Nat} {x y : α} (m : y ∈ l.set t x) (d : α) : y = x ∨ y ∈ l.set t d := by
  obtain ⟨i, h, e⟩ := List.getElem_of_mem m
  rw [List.getElem_set] at e
  split at e
  · exact .inl e.symm
  · rename_i ne
    right
    exact List.mem_iff_getElem.mpr ⟨i, by simpa using h, by rw [List.getElem_set, if_neg ne]; exact e⟩

theorem change_length {h h' : Heap} {a : Nat} {n n' : Node} (e : h.change a n n' = .ok h') : h'.length = h.length := by
  unfold Heap.change at e
  split at e
  · injection e with e; subst e; simp
  · cases e

theorem bind_ok {α β : Type} {x : Except DropErr α} {f : α → Except DropErr β} {b : β} (e : (x >>= f) = .ok b) : ∃ a, x = .ok a ∧ f a = .ok b := by
  cases x with
  | error _ => cases e
  | ok a => exact ⟨a, rfl, e⟩

theorem takeFirst_length {h : Heap} {a : Nat} {n : Node} {r : Option Nat × Heap} (e : h.takeFirst a n = .ok r) : r.2.length = h.length := by
  unfold Heap.takeFirst at e
  split at e
  · obtain ⟨x, _, e⟩ := bind_ok e
    obtain ⟨h', e1, e⟩ := bind_ok e
    injection e with e; subst e
    exact change_length e1
  · injection e with e; subst e; rfl

theorem takeNext_length {h : Heap} {a : Nat} {n : Node} {r : Option Nat × Heap} (e : h.takeNext a n = .ok r) : r.2.length = h.length := by
  unfold Heap.takeNext at e
  split at e
  · obtain ⟨x, _, e⟩ := bind_ok e
    obtain ⟨h', e1, e⟩ := bind_ok e
    injection e with e; subst e
    exact change_length e1
  · injection e with e; subst e; rfl

theorem replaceFirst_length {h : Heap} {a p : Nat} {n : Node} {r : Option Nat × Heap} (e : h.replaceFirst a n p = .ok r) : r.2.length = h.length := by
  unfold Heap.replaceFirst at e
  split at e
  · obtain ⟨x, _, e⟩ := bind_ok e
    obtain ⟨h', e1, e⟩ := bind_ok e
    injection e with e; subst e
    exact change_length e1
  · injection e with e; subst e; rfl

theorem advance_length {h h' : Heap} {st st' : List Frame} (e : advance h st = .ok (h', st')) : h'.length = h.length := by
  cases st with
  | nil => injection e with e; injection e with e _; rw [e]
  | cons f st =>
    cases f with
    | drop a =>
      simp only [advance] at e
      obtain ⟨n, _, e⟩ := bind_ok e
      split at e
      · cases e
      · split at e
        all_goals
          injection e with e; injection e with e _
          rw [← e, List.length_set]
    | each cs =>
      cases cs
      all_goals
        injection e with e; injection e with e _
        rw [e]
    | deep a =>
      simp only [advance] at e
      obtain ⟨n, _, e⟩ := bind_ok e
      split at e
      · obtain ⟨⟨o, h2⟩, e1, e⟩ := bind_ok e
        have := takeFirst_length e1
        cases o
        all_goals
          injection e with e; injection e with e _
          rw [← e, this]
      · injection e with e; injection e with e _
        rw [e]
    | rest a =>
      simp only [advance] at e
      obtain ⟨n, _, e⟩ := bind_ok e
      obtain ⟨⟨o, h2⟩, e1, e⟩ := bind_ok e
      have := takeNext_length e1
      cases o
      all_goals
        injection e with e; injection e with e _
        rw [← e, this]
    | main a =>
      simp only [advance] at e
      obtain ⟨n, _, e⟩ := bind_ok e
      split at e
      · obtain ⟨⟨o, h2⟩, e1, e⟩ := bind_ok e
        have := takeFirst_length e1
        cases o
        all_goals
          injection e with e; injection e with e _
          rw [← e, this]
      · injection e with e; injection e with e _
        rw [e]
    | loop p a =>
      simp only [advance] at e
      obtain ⟨n, _, e⟩ := bind_ok e
      split at e
      · obtain ⟨⟨o, h2⟩, e1, e⟩ := bind_ok e
        have := replaceFirst_length e1
        cases o
        all_goals
          injection e with e; injection e with e _
          rw [← e, this]
      · injection e with e; injection e with e _
        rw [e]
    | next a keep =>
      simp only [advance] at e
      obtain ⟨n, _, e⟩ := bind_ok e
      split at e
      · obtain ⟨⟨o, h2⟩, e1, e⟩ := bind_ok e
        have l2 := takeNext_length e1
        cases o with
        | some x =>
          injection e with e; injection e with e _
          rw [← e, l2]
        | none =>
          obtain ⟨⟨o, h3⟩, e3, e⟩ := bind_ok e
          have l3 := takeFirst_length e3
          dsimp only at l2 l3
          cases o
          all_goals
            injection e with e; injection e with e _
            rw [← e, l3, l2]
      · injection e with e; injection e with e _
        rw [e]

/-- A change of the counts of a clean cell, with the running destructors. -/
theorem inv_counts {s : State} (i : Inv s) {a : Nat} {n : Node} (l : Live s.heap a n) (cl : n.clean) (sg wk : Nat) (held weaks : List Nat)
    (ps : 0 < sg) (hs : sg + s.held.count a = n.strong + held.count a) (hw : wk = weaks.count a) (hH : ∀ x, x ≠ a → held.count x = s.held.count x) (hW : ∀ x, x ≠ a → weaks.count x = s.weaks.count x)
    (hl : ∀ x ∈ weaks, x ∈ s.weaks ∨ x = a) :
    Inv { s with heap := s.heap.set a (some { n with strong := sg, weak := wk }), held := held, weaks := weaks } := by
  refine ⟨?_, fun st m => ?_, fun x m => ?_⟩
  · exact i.core.counts l cl sg wk ps (by dsimp only; omega) hw (fun x ne => by dsimp only; rw [hH x ne]) hH hW
  · exact stackOk_keep st (i.stacks st m) (fun c _ => keep_clean l cl (n' := { n with strong := sg, weak := wk }) cl c)
  · dsimp only
    rw [List.length_set]
    rcases hl x m with m | e
    · exact i.weaks x m
    · subst e; exact live_lt l

theorem inv_held {s : State} (i : Inv s) {a : Nat} (m : a ∈ s.held) : ∃ n, Live s.heap a n ∧ n.clean := by
  have p := List.count_pos_iff.mpr m
  obtain ⟨n, l⟩ := i.core.live (a := a) (by omega)
  exact ⟨n, l, i.core.cleanHeld l (.inl p)⟩

/-- A held handle is cloned, or that of a child of a held cell. -/
theorem inv_clone {s : State} (i : Inv s) {a : Nat} {n : Node} (l : Live s.heap a n) (cl : n.clean) :
    ∃ h, s.heap.clone a = .ok h ∧ Inv { s with heap := h, held := a :: s.held } := by
  have ps := i.core.pos a n l
  refine ⟨s.heap.set a (some { n with strong := n.strong + 1 }), ?_, ?_⟩
  · unfold Heap.clone
    rw [node_ok l]
    show (if n.strong = 0 then _ else _) = _
    rw [if_neg (by omega)]
  · exact inv_counts i l cl (n.strong + 1) n.weak (a :: s.held) s.weaks (by omega) (by rw [count_cons1, cnt1_self]; omega) (i.core.weak a n l)
      (fun x ne => by rw [count_cons1, cnt1_ne ne]; omega) (fun _ _ => rfl) (fun x m => .inl m)

/-- Every action keeps the invariant. -/
theorem inv_act {s : State} (i : Inv s) (act : Act) : ∃ s', act.run s = .ok s' ∧ Inv s' := by
  cases act with
  | new as =>
    unfold Act.run
    dsimp only
    cases e : giveAway as s.held with
    | none => exact ⟨s, rfl, i⟩
    | some held =>
      dsimp only
      by_cases k : as.length ≤ 4
      · rw [if_pos k]
        have g := giveAway_count _ _ _ e
        refine ⟨_, rfl, ?_, fun st m => ?_, fun x m => ?_⟩
        · refine i.core.new as (fun x => ?_) (fun x => ?_) (fun x => ?_) (fun x => by omega) ?_
          · dsimp only; rw [count_cons1, g x]; omega
          · dsimp only; rw [count_cons1]; omega
          · dsimp only; rw [count_cons1, g x]; omega
          · rw [List.count_eq_zero]
            intro m
            have := i.weaks _ m
            omega
        · refine stackOk_keep st (i.stacks st m) (fun c _ => ⟨fun n' l t => ?_, fun n l _ => live_append.mpr (.inl l)⟩)
          rcases live_append.mp l with l | ⟨_, e⟩
          · exact l
          · subst e; cases t
        · have := i.weaks x m
          dsimp only
          rw [List.length_append]
          omega
      · rw [if_neg k]
        exact ⟨s, rfl, i⟩
  | clone a =>
    unfold Act.run
    dsimp only
    by_cases m : a ∈ s.held
    · rw [if_pos m]
      obtain ⟨n, l, cl⟩ := inv_held i m
      obtain ⟨h, e, i'⟩ := inv_clone i l cl
      rw [e]
      exact ⟨_, rfl, i'⟩
    · rw [if_neg m]
      exact ⟨s, rfl, i⟩
  | child a j =>
    unfold Act.run
    dsimp only
    by_cases m : a ∈ s.held
    · rw [if_pos m]
      obtain ⟨n, l, cl⟩ := inv_held i m
      rw [node_ok l]
      show ∃ s', (if j < n.cnt then _ else _) = _ ∧ _
      by_cases k : j < n.cnt
      · rw [if_pos k]
        have jl : j < n.refs.length := by rw [← cl.2.1]; exact k
        rw [slot_ok jl]
        have mo : n.refs[j] ∈ n.owned := by rw [clean_owned cl]; exact List.getElem_mem jl
        have p : 0 < indeg s.heap n.refs[j] := indeg_pos l mo
        obtain ⟨n2, l2⟩ := live_of_strongAt (h := s.heap) (a := n.refs[j]) (by rw [i.core.count]; omega)
        have cl2 : n2.clean := Classical.byContradiction fun d => (i.core.dirty _ n2 l2 d).2.2.2 a n l mo cl
        obtain ⟨h, e, i'⟩ := inv_clone i l2 cl2
        show ∃ s', (s.heap.clone n.refs[j] >>= _) = _ ∧ _
        rw [e]
        exact ⟨_, rfl, i'⟩
      · rw [if_neg k]
        exact ⟨s, rfl, i⟩
    · rw [if_neg m]
      exact ⟨s, rfl, i⟩
  | drop a =>
    unfold Act.run
    dsimp only
    by_cases m : a ∈ s.held
    · rw [if_pos m]
      refine ⟨_, rfl, ?_, fun st ms => ?_, i.weaks⟩
      · refine i.core.moved (fun x => ?_) (fun x => ?_) (fun x n l => rfl)
        · dsimp only
          rw [List.flatMap_append, List.count_append, count_erase1 m x]
          simp only [List.flatMap_cons, List.flatMap_nil, List.append_nil, stackH_cons, Frame.handles, count_cons1, List.count_nil]
          simp only [stackH, List.flatMap_nil, List.count_nil]
          omega
        · dsimp only
          have := count_erase1 m x
          omega
      · rcases List.mem_append.mp ms with ms | ms
        · exact i.stacks st ms
        · have : st = [.drop a] := by simpa using ms
          subst this
          obtain ⟨n, l, cl⟩ := inv_held i m
          exact ⟨drop_ok (fun n' l' => live_inj l l' ▸ cl.2.2.2), trivial, trivial⟩
    · rw [if_neg m]
      exact ⟨s, rfl, i⟩
  | weak a =>
    unfold Act.run
    dsimp only
    by_cases m : a ∈ s.held
    · rw [if_pos m]
      obtain ⟨n, l, cl⟩ := inv_held i m
      rw [node_ok l]
      refine ⟨_, rfl, ?_⟩
      exact inv_counts i l cl n.strong (n.weak + 1) s.held (a :: s.weaks) (i.core.pos a n l) (by omega) (by rw [count_cons1, cnt1_self, i.core.weak a n l]; omega)
        (fun _ _ => rfl) (fun x ne => by rw [count_cons1, cnt1_ne ne]; omega) (fun x m => by rcases List.mem_cons.mp m with e | m; exact .inr e; exact .inl m)
    · rw [if_neg m]
      exact ⟨s, rfl, i⟩
  | upgrade a =>
    unfold Act.run
    dsimp only
    by_cases m : a ∈ s.weaks
    · rw [if_pos m]
      by_cases ex : ∃ n, Live s.heap a n
      · obtain ⟨n, l⟩ := ex
        have cl : n.clean := i.core.cleanHeld l (.inr (List.count_pos_iff.mpr m))
        have e : s.heap[a]? = some (some n) := l
        rw [e]
        refine ⟨_, rfl, ?_⟩
        exact inv_counts i l cl (n.strong + 1) n.weak (a :: s.held) s.weaks (by omega) (by rw [count_cons1, cnt1_self]; omega) (i.core.weak a n l)
          (fun x ne => by rw [count_cons1, cnt1_ne ne]; omega) (fun _ _ => rfl) (fun x m => .inl m)
      · refine ⟨s, ?_, i⟩
        split
        · rename_i n e; exact absurd ⟨n, e⟩ ex
        · rfl
    · rw [if_neg m]
      exact ⟨s, rfl, i⟩
  | cloneWeak a =>
    unfold Act.run
    dsimp only
    by_cases m : a ∈ s.weaks
    · rw [if_pos m]
      by_cases ex : ∃ n, Live s.heap a n
      · obtain ⟨n, l⟩ := ex
        have cl : n.clean := i.core.cleanHeld l (.inr (List.count_pos_iff.mpr m))
        have e : s.heap[a]? = some (some n) := l
        rw [e]
        refine ⟨_, rfl, ?_⟩
        exact inv_counts i l cl n.strong (n.weak + 1) s.held (a :: s.weaks) (i.core.pos a n l) (by omega) (by rw [count_cons1, cnt1_self, i.core.weak a n l]; omega)
          (fun _ _ => rfl) (fun x ne => by rw [count_cons1, cnt1_ne ne]; omega) (fun x m => by rcases List.mem_cons.mp m with e | m; exact .inr e; exact .inl m)
      · refine ⟨{ s with weaks := a :: s.weaks }, ?_, ?_, i.stacks, fun x mx => ?_⟩
        · split
          · rename_i n e; exact absurd ⟨n, e⟩ ex
          · rfl
        · refine i.core.moved (fun x => rfl) (fun x => Nat.le_refl _) (fun x n l => ?_)
          dsimp only
          rw [count_cons1, cnt1_ne (fun e : x = a => ex ⟨n, e ▸ l⟩)]
          omega
        · rcases List.mem_cons.mp mx with e | mx
          · subst e; exact i.weaks x m
          · exact i.weaks x mx
    · rw [if_neg m]
      exact ⟨s, rfl, i⟩
  | dropWeak a =>
    unfold Act.run
    dsimp only
    by_cases m : a ∈ s.weaks
    · rw [if_pos m]
      have ce := count_erase1 m
      by_cases ex : ∃ n, Live s.heap a n
      · obtain ⟨n, l⟩ := ex
        have cl : n.clean := i.core.cleanHeld l (.inr (List.count_pos_iff.mpr m))
        have w := i.core.weak a n l
        have c0 := ce a
        rw [cnt1_self] at c0
        have e : s.heap[a]? = some (some n) := l
        rw [e]
        dsimp only
        rw [if_neg (by omega)]
        refine ⟨_, rfl, ?_⟩
        exact inv_counts i l cl n.strong (n.weak - 1) s.held (s.weaks.erase a) (i.core.pos a n l) (by omega) (by omega)
          (fun _ _ => rfl) (fun x ne => by rw [ce x, cnt1_ne ne]; omega) (fun x m => .inl (List.mem_of_mem_erase m))
      · refine ⟨{ s with weaks := s.weaks.erase a }, ?_, ?_, i.stacks, fun x mx => i.weaks x (List.mem_of_mem_erase mx)⟩
        · split
          · rename_i n e; exact absurd ⟨n, e⟩ ex
          · rfl
        · refine i.core.moved (fun x => rfl) (fun x => Nat.le_refl _) (fun x n l => ?_)
          dsimp only
          rw [ce x, cnt1_ne (fun e : x = a => ex ⟨n, e ▸ l⟩)]
          omega
    · rw [if_neg m]
      exact ⟨s, rfl, i⟩
  | step t =>
    unfold Act.run
    dsimp only
    cases e : s.threads[t]? with
    | none => exact ⟨s, rfl, i⟩
    | some st =>
      have cs : ∀ (x : List Frame) b, ((s.threads.set t x).flatMap stackH).count b + (stackH st).count b = (s.threads.flatMap stackH).count b + (stackH x).count b :=
        fun x b => count_set stackH x st b s.threads t e
      have hR : ∀ x, s.held.count x + (s.threads.flatMap stackH).count x = (stackH st).count x + (s.held.count x + ((s.threads.set t []).flatMap stackH).count x) := fun x => by
        have := cs [] x
        simp only [stackH, List.flatMap_nil, List.count_nil] at this
        simp only [stackH]
        omega
      obtain ⟨h', st', e1, c', o', k', _⟩ := step_ok i.core (i.stacks st (List.mem_of_getElem? e)) hR (fun x => by omega)
      dsimp only
      rw [e1]
      refine ⟨_, rfl, c'.eq (fun x => ?_), fun u mu => ?_, ?_⟩
      · dsimp only
        have := cs st' x
        have := cs [] x
        have z : (stackH []).count x = 0 := rfl
        omega
      · dsimp only at mu
        rcases mem_set_cases mu [] with e | mo
        · subst e; exact o'
        · have ou : StackOk s.heap u := by
            rcases List.mem_or_eq_of_mem_set mo with m | e
            · exact i.stacks u m
            · subst e; trivial
          refine stackOk_keep u ou (fun c mc => k' c ?_)
          have : 0 < ((s.threads.set t []).flatMap stackH).count c := List.count_pos_iff.mpr (List.mem_flatMap.mpr ⟨u, mo, mc⟩)
          exact Nat.lt_of_lt_of_le this (Nat.le_add_left _ _)
      · dsimp only
        rw [advance_length e1]
        exact i.weaks

theorem inv_runs {s : State} (i : Inv s) (acts : List Act) : ∃ s', s.runs acts = .ok s' ∧ Inv s' := by
  induction acts generalizing s with
  | nil => exact ⟨s, rfl, i⟩
  | cons a as ih =>
    obtain ⟨s1, e1, i1⟩ := inv_act i a
    obtain ⟨s2, e2, i2⟩ := ih i1
    refine ⟨s2, ?_, i2⟩
    rw [State.runs, e1]
    exact e2

theorem inv_of_runs {acts : List Act} {s : State} (e : State.init.runs acts = .ok s) : Inv s := by
  obtain ⟨s', e', i⟩ := inv_runs inv_init acts
  rw [e'] at e
  injection e with e
  exact e ▸ i

theorem runs_append {s s1 : State} {as bs : List Act} (e : s.runs as = .ok s1) : s.runs (as ++ bs) = s1.runs bs := by
  induction as generalizing s with
  | nil => injection e with e; subst e; rfl
  | cons a as ih =>
    rw [State.runs] at e
    obtain ⟨s2, e2, e⟩ := bind_ok e
    rw [List.cons_append, State.runs, e2]
    exact ih e

theorem reach_live {s : State} (i : Inv s) {a b : Nat} (r : Reach s.heap a b) : (∃ n, Live s.heap a n ∧ n.clean) → ∃ n, Live s.heap b n ∧ n.clean := by
  induction r with
  | refl a => exact id
  | @step a b c n l m _ ih =>
    rintro ⟨n', l', cl⟩
    have e := live_inj l l'
    subst e
    refine ih ?_
    obtain ⟨k, lk⟩ := live_of_strongAt (h := s.heap) (a := b) (by have := indeg_pos l m; rw [i.core.count]; omega)
    exact ⟨k, lk, Classical.byContradiction fun d => (i.core.dirty b k lk d).2.2.2 a n l m cl⟩

theorem rank_bound (r : Nat → Nat) : ∀ N, ∃ M, ∀ a, a < N → r a ≤ M
  | 0 => ⟨0, fun a l => (by omega)⟩
  | N + 1 => by
    obtain ⟨M, hM⟩ := rank_bound r N
    refine ⟨M + r N, fun a l => ?_⟩
    by_cases e : a = N
    · subst e; omega
    · have := hM a (by omega); omega

theorem reach_trans {h : Heap} {a b c : Nat} (r : Reach h a b) (q : Reach h b c) : Reach h a c := by
  induction r with
  | refl _ => exact q
  | step l m _ ih => exact .step l m (ih q)

theorem idle_handles {ts : List (List Frame)} (z : ∀ st ∈ ts, st = []) (x : Nat) : (ts.flatMap stackH).count x = 0 := by
  rw [List.count_eq_zero]
  intro m
  obtain ⟨st, ms, mx⟩ := List.mem_flatMap.mp m
  rw [z st ms] at mx
  cases mx

/-- The memory and the running destructors. -/
def work (s : State) : Nat := heapW s.heap + (s.threads.map stackW).sum

/-- A thread that has something to do. -/
def Busy (s : State) (t : Nat) : Prop := ∃ f st, s.threads[t]? = some (f :: st)

/-- Steps of threads that have something to do, and nothing else. -/
inductive Steps : State → List Nat → State → Prop
  | done (s : State) : Steps s [] s
  | next {s s1 s2 : State} {t : Nat} {ts : List Nat} : Busy s t → Act.run s (.step t) = .ok s1 → Steps s1 ts s2 → Steps s (t :: ts) s2

theorem busy_step {s : State} (i : Inv s) {t : Nat} (b : Busy s t) : ∃ s1, Act.run s (.step t) = .ok s1 ∧ Inv s1 ∧ work s1 < work s := by
  obtain ⟨s1, e1, i1⟩ := inv_act i (.step t)
  refine ⟨s1, e1, i1, ?_⟩
  obtain ⟨f, st, e⟩ := b
  have cs : ∀ (x : List Frame) b, ((s.threads.set t x).flatMap stackH).count b + (stackH (f :: st)).count b = (s.threads.flatMap stackH).count b + (stackH x).count b :=
    fun x b => count_set stackH x (f :: st) b s.threads t e
  have hR : ∀ x, s.held.count x + (s.threads.flatMap stackH).count x = (stackH (f :: st)).count x + (s.held.count x + ((s.threads.set t []).flatMap stackH).count x) := fun x => by
    have := cs [] x
    have z : (stackH []).count x = 0 := rfl
    omega
  obtain ⟨h', st', e2, _, _, _, w⟩ := step_ok i.core (i.stacks _ (List.mem_of_getElem? e)) hR (fun x => by omega)
  unfold Act.run at e1
  dsimp only at e1
  rw [e] at e1
  dsimp only at e1
  rw [e2] at e1
  injection e1 with e1
  subst e1
  have w := w (by simp)
  have := sum_set stackW st' (f :: st) s.threads t e
  unfold work
  dsimp only
  omega

theorem busy_of_not_idle : ∀ (ts : List (List Frame)), ¬ (∀ st ∈ ts, st = []) → ∃ (t : Nat) (f : Frame) (st : List Frame), ts[t]? = some (f :: st) := by
  intro ts
  induction ts with
  | nil => intro h; exact absurd (fun st m => by cases m) h
  | cons u us ih =>
    intro h
    cases u with
    | cons f st => exact ⟨0, f, st, rfl⟩
    | nil =>
      obtain ⟨t, f, st, e⟩ := ih (fun q => h (fun st m => by
        rcases List.mem_cons.mp m with e | m
        · exact e
        · exact q st m))
      exact ⟨t + 1, f, st, e⟩

/-! ### What a cell was built with -/

/-- The cells of the new memory are cells of the old one, built with the same references. -/
def Same (h h' : Heap) : Prop := ∀ a n', Live h' a n' → ∃ n, Live h a n ∧ n.built = n'.built

theorem same_refl (h : Heap) : Same h h := fun a n l => ⟨n, l, rfl⟩

theorem same_set {h : Heap} {a : Nat} {n : Node} (l : Live h a n) (x : Option Node) (e : ∀ n', x = some n' → n'.built = n.built) : Same h (h.set a x) := by
  intro b m lb
  rcases (live_set (live_lt l)).mp lb with ⟨e1, e2⟩ | ⟨_, lb⟩
  · subst e1
    exact ⟨n, l, (e m e2).symm⟩
  · exact ⟨m, lb, rfl⟩

theorem change_same {h h' : Heap} {a : Nat} {n n' : Node} (l : Live h a n) (eb : n'.built = n.built) (e : h.change a n n' = .ok h') : Same h h' := by
  unfold Heap.change at e
  split at e
  · injection e with e; subst e
    exact same_set l _ (fun m em => by injection em with em; subst em; exact eb)
  · cases e

theorem node_live {h : Heap} {a : Nat} {n : Node} (e : h.node a = .ok n) : Live h a n := by
  unfold Heap.node at e
  split at e
  · rename_i e'
    injection e with e
    subst e
    exact e'
  · cases e

theorem takeFirst_same {h : Heap} {a : Nat} {n : Node} {r : Option Nat × Heap} (l : Live h a n) (e : h.takeFirst a n = .ok r) : Same h r.2 := by
  unfold Heap.takeFirst at e
  split at e
  · obtain ⟨x, _, e⟩ := bind_ok e
    obtain ⟨h', e1, e⟩ := bind_ok e
    injection e with e; subst e
    exact change_same (n' := { n with noFirst := true }) l rfl e1
  · injection e with e; subst e; exact same_refl h

theorem takeNext_same {h : Heap} {a : Nat} {n : Node} {r : Option Nat × Heap} (l : Live h a n) (e : h.takeNext a n = .ok r) : Same h r.2 ∧ (r.1 = none → r.2 = h) := by
  unfold Heap.takeNext at e
  split at e
  · obtain ⟨x, _, e⟩ := bind_ok e
    obtain ⟨h', e1, e⟩ := bind_ok e
    injection e with e; subst e
    exact ⟨change_same (n' := { n with cnt := n.cnt - 1 }) l rfl e1, fun q => by cases q⟩
  · injection e with e; subst e; exact ⟨same_refl h, fun _ => rfl⟩

theorem replaceFirst_same {h : Heap} {a p : Nat} {n : Node} {r : Option Nat × Heap} (l : Live h a n) (e : h.replaceFirst a n p = .ok r) : Same h r.2 := by
  unfold Heap.replaceFirst at e
  split at e
  · obtain ⟨x, _, e⟩ := bind_ok e
    obtain ⟨h', e1, e⟩ := bind_ok e
    injection e with e; subst e
    exact change_same (n' := { n with refs := n.refs.set 0 p, turned := true }) l rfl e1
  · injection e with e; subst e; exact same_refl h

theorem advance_same {h h' : Heap} {st st' : List Frame} (e : advance h st = .ok (h', st')) : Same h h' := by
  cases st with
  | nil => injection e with e; injection e with e _; rw [e]; exact same_refl _
  | cons f st =>
    cases f with
    | drop a =>
      simp only [advance] at e
      obtain ⟨n, l, e⟩ := bind_ok e
      have l := node_live l
      split at e
      · cases e
      · split at e
        all_goals
          injection e with e; injection e with e _
          rw [← e]
        · exact same_set l _ (fun m em => by injection em with em; subst em; rfl)
        · exact same_set l _ (fun m em => by cases em)
    | each cs =>
      cases cs
      all_goals
        injection e with e; injection e with e _
        rw [e]
        exact same_refl _
    | deep a =>
      simp only [advance] at e
      obtain ⟨n, l, e⟩ := bind_ok e
      have l := node_live l
      split at e
      · obtain ⟨⟨o, h2⟩, e1, e⟩ := bind_ok e
        have := takeFirst_same l e1
        cases o
        all_goals
          injection e with e; injection e with e _
          rw [← e]
          exact this
      · injection e with e; injection e with e _
        rw [e]
        exact same_refl _
    | rest a =>
      simp only [advance] at e
      obtain ⟨n, l, e⟩ := bind_ok e
      have l := node_live l
      obtain ⟨⟨o, h2⟩, e1, e⟩ := bind_ok e
      have := (takeNext_same l e1).1
      cases o
      all_goals
        injection e with e; injection e with e _
        rw [← e]
        exact this
    | main a =>
      simp only [advance] at e
      obtain ⟨n, l, e⟩ := bind_ok e
      have l := node_live l
      split at e
      · obtain ⟨⟨o, h2⟩, e1, e⟩ := bind_ok e
        have := takeFirst_same l e1
        cases o
        all_goals
          injection e with e; injection e with e _
          rw [← e]
          exact this
      · injection e with e; injection e with e _
        rw [e]
        exact same_refl _
    | loop p a =>
      simp only [advance] at e
      obtain ⟨n, l, e⟩ := bind_ok e
      have l := node_live l
      split at e
      · obtain ⟨⟨o, h2⟩, e1, e⟩ := bind_ok e
        have := replaceFirst_same l e1
        cases o
        all_goals
          injection e with e; injection e with e _
          rw [← e]
          exact this
      · injection e with e; injection e with e _
        rw [e]
        exact same_refl _
    | next a keep =>
      simp only [advance] at e
      obtain ⟨n, l, e⟩ := bind_ok e
      have l := node_live l
      split at e
      · obtain ⟨⟨o, h2⟩, e1, e⟩ := bind_ok e
        have l2 := takeNext_same l e1
        cases o with
        | some x =>
          injection e with e; injection e with e _
          rw [← e]
          exact l2.1
        | none =>
          obtain ⟨⟨o, h3⟩, e3, e⟩ := bind_ok e
          have eh : h2 = h := l2.2 rfl
          subst eh
          have l3 := takeFirst_same l e3
          cases o
          all_goals
            injection e with e; injection e with e _
            rw [← e]
            exact l3
      · injection e with e; injection e with e _
        rw [e]
        exact same_refl _

theorem clone_same {h h' : Heap} {a : Nat} (e : h.clone a = .ok h') : Same h h' := by
  unfold Heap.clone at e
  obtain ⟨n, l, e⟩ := bind_ok e
  split at e
  · cases e
  · injection e with e
    rw [← e]
    exact same_set (node_live l) _ (fun m em => by injection em with em; subst em; rfl)

/-! ### A schedule with nested destructors -/

/-- How many destructors of cells are on the stack. -/
def nested (st : List Frame) : Nat := (st.filter (fun f => match f with | .each _ => true | _ => false)).length

/-- A cell of a chain, held by the one above and by the program. -/
def link (j : Nat) : Node := ⟨if j = 0 then [] else [j - 1], if j = 0 then 0 else 1, false, 2, 0, if j = 0 then [] else [j - 1], false⟩

/-- A chain of cells, with a handle of each. -/
def chain : Nat → List Act
  | 0 => [.new []]
  | n + 1 => chain n ++ [.clone n, .new [n]]

/-- The handles are released from the top; each time the other handle goes away between the check and the release of the one in the slot. The releases run in threads `k`, `k + 1` and so on. -/
def unlucky (k : Nat) : Nat → List Act
  | 0 => []
  | i + 1 => [.step 0, .step 0, .drop i, .step k, .step 0] ++ unlucky (k + 1) i

theorem chain_state (n : Nat) : ∃ s, State.init.runs (chain n) = .ok s ∧ s.heap.length = n + 1 ∧ (∀ j, j < n → Live s.heap j (link j)) ∧ Live s.heap n { link n with strong := 1 } ∧
    (∀ j, j < n → j ∈ s.held.erase n) ∧ n ∈ s.held ∧ s.threads = [] := by
  induction n with
  | zero => exact ⟨_, rfl, rfl, fun j l => (by omega), rfl, fun j l => (by omega), List.mem_cons_self, rfl⟩
  | succ n ih =>
    obtain ⟨s, e, len, lv, ln, hl, hn, th⟩ := ih
    rw [chain, runs_append e]
    have la := live_lt ln
    have e1 : Act.run s (.clone n) = .ok { s with heap := s.heap.set n (some (link n)), held := n :: s.held } := by
      unfold Act.run
      dsimp only
      rw [if_pos hn, Heap.clone, node_ok ln]
      rfl
    have e2 : Act.run { s with heap := s.heap.set n (some (link n)), held := n :: s.held } (.new [n]) =
        .ok { s with heap := s.heap.set n (some (link n)) ++ [some ⟨[n], 1, false, 1, 0, [n], false⟩], held := (s.heap.set n (some (link n))).length :: s.held } := by
      unfold Act.run
      dsimp only
      have : giveAway [n] (n :: s.held) = some s.held := by simp [giveAway]
      rw [this]
      rfl
    rw [State.runs, e1]
    show ∃ s', (State.runs _ [.new [n]]) = _ ∧ _
    rw [State.runs, e2]
    have el : (s.heap.set n (some (link n))).length = n + 1 := by rw [List.length_set, len]
    have nh : n + 1 ∉ s.held.erase n := fun m => by
      obtain ⟨k, lk, _⟩ := inv_held (inv_of_runs e) (List.mem_of_mem_erase m)
      have := live_lt lk
      omega
    refine ⟨_, rfl, ?_, fun j hj => live_append.mpr (.inl ?_), live_append.mpr (.inr ⟨el.symm, rfl⟩), fun j hj => ?_, ?_, th⟩
    · dsimp only
      rw [List.length_append, el]
      rfl
    · by_cases ej : j = n
      · subst ej
        exact (live_set la).mpr (.inl ⟨rfl, rfl⟩)
      · exact (live_set la).mpr (.inr ⟨ej, lv j (by omega)⟩)
    · dsimp only
      rw [el, List.erase_cons_head]
      by_cases ej : j = n
      · subst ej; exact hn
      · exact List.mem_of_mem_erase (hl j (by omega))
    · dsimp only
      rw [el]
      exact List.mem_cons_self

theorem set_head {ts : List (List Frame)} {x y : List Frame} (e : ts[0]? = some x) : (ts.set 0 y)[0]? = some y := by
  cases ts with
  | nil => simp at e
  | cons z l => rfl

theorem step_zero {s : State} {st st' : List Frame} {h' : Heap} (e : s.threads[0]? = some st) (a : advance s.heap st = .ok (h', st')) :
    Act.run s (.step 0) = .ok { s with heap := h', threads := s.threads.set 0 st' } := by
  unfold Act.run
  dsimp only
  rw [e]
  dsimp only
  rw [a]
  rfl

theorem unlucky_state : ∀ (i : Nat) (s : State) (st : List Frame), (∀ j, j < i → Live s.heap j (link j)) → (∀ j, j < i → j ∈ s.held) →
    s.threads[0]? = some (.each (if i = 0 then [] else [i - 1]) :: st) →
    ∃ s' st', s.runs (unlucky s.threads.length i) = .ok s' ∧ s'.threads[0]? = some (.each [] :: st') ∧ nested st' = nested st + i := by
  intro i
  induction i with
  | zero => intro s st _ _ e; exact ⟨s, st, rfl, e, rfl⟩
  | succ i ih =>
    intro s st lv hl e
    rw [if_neg (by omega)] at e
    have e : s.threads[0]? = some (.each [i] :: st) := e
    have li := lv i (by omega)
    have la := live_lt li
    have len : 0 < s.threads.length := (List.getElem?_eq_some_iff.mp e).1
    -- the check
    have a1 : advance s.heap (.each [i] :: st) = .ok (s.heap, .deep i :: .drop i :: .each [] :: st) := rfl
    have a2 : advance s.heap (.deep i :: .drop i :: .each [] :: st) = .ok (s.heap, .drop i :: .each [] :: st) := by
      simp only [advance, node_ok li]
      rfl
    let s2 : State := { s with threads := (s.threads.set 0 (.deep i :: .drop i :: .each [] :: st)).set 0 (.drop i :: .each [] :: st) }
    have t2 : s2.threads[0]? = some (.drop i :: .each [] :: st) := set_head (set_head e)
    have l2 : s2.threads.length = s.threads.length := by simp [s2]
    -- the other handle goes away
    let s3 : State := { s2 with held := s2.held.erase i, threads := s2.threads ++ [[.drop i]] }
    have e3 : Act.run s2 (.drop i) = .ok s3 := by
      unfold Act.run
      dsimp only
      rw [if_pos (show i ∈ s2.held from hl i (by omega))]
    have t3 : s3.threads[s.threads.length]? = some [.drop i] := by
      show (s2.threads ++ [[Frame.drop i]])[s.threads.length]? = _
      rw [← l2]
      simp
    let s4 : State := { s3 with heap := s.heap.set i (some { link i with strong := 1 }), threads := s3.threads.set s.threads.length [] }
    have e4 : Act.run s3 (.step s.threads.length) = .ok s4 := by
      unfold Act.run
      dsimp only
      rw [t3]
      dsimp only
      have : advance s3.heap [.drop i] = .ok (s.heap.set i (some { link i with strong := 1 }), []) := by
        show advance s.heap [.drop i] = _
        simp only [advance, node_ok li]
        rfl
      rw [this]
      rfl
    have t4 : s4.threads[0]? = some (.drop i :: .each [] :: st) := by
      show ((s2.threads ++ [[Frame.drop i]]).set s.threads.length [])[0]? = _
      rw [List.getElem?_set, if_neg (by omega), List.getElem?_append_left (by omega)]
      exact t2
    -- the handle in the slot is the last one
    have l4 : Live s4.heap i { link i with strong := 1 } := (live_set la).mpr (.inl ⟨rfl, rfl⟩)
    have a5 : advance s4.heap (.drop i :: .each [] :: st) = .ok (s4.heap.set i none, .each (if i = 0 then [] else [i - 1]) :: .each [] :: st) := by
      simp only [advance, node_ok l4]
      show Except.ok (s4.heap.set i none, Frame.each (link i).owned :: .each [] :: st) = _
      have : (link i).owned = if i = 0 then [] else [i - 1] := by
        unfold link Node.owned
        by_cases z : i = 0
        · simp [z]
        · simp [z]
      rw [this]
    let s5 : State := { s4 with heap := s4.heap.set i none, threads := s4.threads.set 0 (.each (if i = 0 then [] else [i - 1]) :: .each [] :: st) }
    have t5 : s5.threads[0]? = some (.each (if i = 0 then [] else [i - 1]) :: .each [] :: st) := set_head t4
    have l5 : s5.threads.length = s.threads.length + 1 := by simp [s5, s4, s3, s2]
    obtain ⟨s', st', r, t', n'⟩ := ih s5 (.each [] :: st)
      (fun j hj => (live_set (by simpa [s4] using la)).mpr (.inr ⟨by omega, (live_set la).mpr (.inr ⟨by omega, lv j (by omega)⟩)⟩))
      (fun j hj => by
        show j ∈ s.held.erase i
        exact (List.mem_erase_of_ne (by omega)).mpr (hl j (by omega))) t5
    refine ⟨s', st', ?_, t', ?_⟩
    · rw [unlucky]
      have : s.runs [.step 0, .step 0, .drop i, .step s.threads.length, .step 0] = .ok s5 := by
        rw [State.runs, step_zero e a1]
        show State.runs _ [.step 0, .drop i, .step s.threads.length, .step 0] = _
        rw [State.runs, step_zero (s := { s with heap := s.heap, threads := s.threads.set 0 (.deep i :: .drop i :: .each [] :: st) }) (set_head e) a2]
        show State.runs s2 [.drop i, .step s.threads.length, .step 0] = _
        rw [State.runs, e3]
        show State.runs s3 [.step s.threads.length, .step 0] = _
        rw [State.runs, e4]
        show State.runs s4 [.step 0] = _
        rw [State.runs, step_zero t4 a5]
        rfl
      rw [runs_append this, ← l5]
      exact r
    · rw [n']
      show (nested (.each [] :: st)) + i = _
      have : nested (.each [] :: st) = nested st + 1 := by simp [nested]
      omega

/-! ### C85 -/

/-- C85: whatever handles the threads of a program clone, give away, upgrade and release, and however the steps of the destructors are interleaved, no step touches a released cell, reads a slot
that was moved away, takes a count below zero or changes a cell that others may see. -/
theorem C85_safe (acts : List Act) : ∃ s, State.init.runs acts = .ok s := by
  obtain ⟨s, e, _⟩ := inv_runs inv_init acts
  exact ⟨s, e⟩

/-- C85: at every moment, also while destructors run, each cell that can be reached from a held handle is in memory and has exactly the references it was built with. -/
theorem C85_kept {acts : List Act} {s : State} (e : State.init.runs acts = .ok s) {a b : Nat} (m : a ∈ s.held) (r : Reach s.heap a b) :
    ∃ n, Live s.heap b n ∧ n.owned = n.built ∧ n.refs = n.built ∧ n.cnt = n.built.length := by
  obtain ⟨n, l, cl⟩ := reach_live (inv_of_runs e) r (inv_held (inv_of_runs e) m)
  exact ⟨n, l, by rw [clean_owned cl, cl.1], cl.1, by rw [cl.2.1, cl.1]⟩

/-- C85: when all destructors have returned, the cells in memory are exactly those that can be reached from held handles; a weak handle alone keeps nothing. -/
theorem C85_no_leak {acts : List Act} {s : State} (e : State.init.runs acts = .ok s) (idle : ∀ st ∈ s.threads, st = []) (x : Nat) :
    (∃ n, Live s.heap x n) ↔ ∃ a ∈ s.held, Reach s.heap a x := by
  have i := inv_of_runs e
  constructor
  · obtain ⟨r, hr⟩ := i.core.rank
    obtain ⟨M, hM⟩ := rank_bound r s.heap.length
    have key : ∀ k y n, Live s.heap y n → M ≤ r y + k → ∃ a ∈ s.held, Reach s.heap a y := by
      intro k
      induction k with
      | zero =>
        intro y n l b
        have p := i.core.pos y n l
        have q := i.core.count y
        rw [strongAt_live l, idle_handles idle] at q
        rcases Nat.eq_zero_or_pos (indeg s.heap y) with z | z
        · exact ⟨y, List.count_pos_iff.mp (by omega), .refl y⟩
        · obtain ⟨c, m, lc, mc⟩ := of_indeg_pos z
          have := hr c m lc y mc
          have := hM c (live_lt lc)
          omega
      | succ k ih =>
        intro y n l b
        have p := i.core.pos y n l
        have q := i.core.count y
        rw [strongAt_live l, idle_handles idle] at q
        rcases Nat.eq_zero_or_pos (indeg s.heap y) with z | z
        · exact ⟨y, List.count_pos_iff.mp (by omega), .refl y⟩
        · obtain ⟨c, m, lc, mc⟩ := of_indeg_pos z
          have := hr c m lc y mc
          obtain ⟨a, ma, ra⟩ := ih c m lc (by omega)
          exact ⟨a, ma, reach_trans ra (.step lc mc (.refl y))⟩
    rintro ⟨n, l⟩
    exact key M x n l (by omega)
  · rintro ⟨a, ma, ra⟩
    obtain ⟨n, l, _⟩ := reach_live i ra (inv_held i ma)
    exact ⟨n, l⟩

/-- C85: no destructor runs forever or waits for another one: however the steps are interleaved, there are no more of them than `work`, which is at most two for each cell in memory, four for each reference, and what the
frames of the running destructors add; and all destructors can always be brought to an end. -/
theorem C85_ends {acts : List Act} {s : State} (e : State.init.runs acts = .ok s) :
    (∀ ts s', Steps s ts s' → ts.length ≤ work s) ∧ ∃ ts s', Steps s ts s' ∧ ∀ st ∈ s'.threads, st = [] := by
  have i := inv_of_runs e
  clear e
  constructor
  · intro ts s' r
    induction r with
    | done s => exact Nat.zero_le _
    | next b e1 _ ih =>
      obtain ⟨s2, e2, i2, w⟩ := busy_step i b
      rw [e2] at e1
      injection e1 with e1
      subst e1
      have := ih i2
      rw [List.length_cons]
      omega
  · have key : ∀ N s, Inv s → work s ≤ N → ∃ ts s', Steps s ts s' ∧ ∀ st ∈ s'.threads, st = [] := by
      intro N
      induction N with
      | zero =>
        intro s i w
        by_cases z : ∀ st ∈ s.threads, st = []
        · exact ⟨[], s, .done s, z⟩
        · obtain ⟨t, f, st, e⟩ := busy_of_not_idle _ z
          obtain ⟨s1, _, _, w1⟩ := busy_step i ⟨f, st, e⟩
          omega
      | succ N ih =>
        intro s i w
        by_cases z : ∀ st ∈ s.threads, st = []
        · exact ⟨[], s, .done s, z⟩
        · obtain ⟨t, f, st, e⟩ := busy_of_not_idle _ z
          obtain ⟨s1, e1, i1, w1⟩ := busy_step i ⟨f, st, e⟩
          obtain ⟨ts, s', r, d⟩ := ih s1 i1 (by omega)
          exact ⟨t :: ts, s', .next ⟨f, st, e⟩ e1 r, d⟩
    exact key _ s i (Nat.le_refl _)

/-- C85: what a cell was built with never changes, so the references of `C85_kept` are those that were given to the builder: each cell in memory after an action was there before, built with the same
references, or the action has built it. -/
theorem C85_built {s s' : State} {act : Act} (e : act.run s = .ok s') {a : Nat} {n : Node} (l : Live s'.heap a n) :
    (∃ n0, Live s.heap a n0 ∧ n0.built = n.built) ∨ (act = .new n.built ∧ a = s.heap.length ∧ n.built.length ≤ 4) := by
  have stay : s' = s → (∃ n0, Live s.heap a n0 ∧ n0.built = n.built) ∨ (act = .new n.built ∧ a = s.heap.length ∧ n.built.length ≤ 4) := fun q => .inl ⟨n, q ▸ l, rfl⟩
  have same : Same s.heap s'.heap → (∃ n0, Live s.heap a n0 ∧ n0.built = n.built) ∨ (act = .new n.built ∧ a = s.heap.length ∧ n.built.length ≤ 4) := fun q => .inl (q a n l)
  cases act with
  | new as =>
    unfold Act.run at e
    dsimp only at e
    split at e
    · split at e
      · rename_i k
        injection e with e
        subst e
        rcases live_append.mp l with l | ⟨e1, e2⟩
        · exact .inl ⟨n, l, rfl⟩
        · subst e2
          exact .inr ⟨rfl, e1, k⟩
      · injection e with e; exact stay e.symm
    · injection e with e; exact stay e.symm
  | clone b =>
    unfold Act.run at e
    dsimp only at e
    split at e
    · obtain ⟨h, e1, e⟩ := bind_ok e
      injection e with e; subst e
      exact same (clone_same e1)
    · injection e with e; exact stay e.symm
  | child b j =>
    unfold Act.run at e
    dsimp only at e
    split at e
    · obtain ⟨m, _, e⟩ := bind_ok e
      split at e
      · obtain ⟨c, _, e⟩ := bind_ok e
        obtain ⟨h, e1, e⟩ := bind_ok e
        injection e with e; subst e
        exact same (clone_same e1)
      · injection e with e; exact stay e.symm
    · injection e with e; exact stay e.symm
  | drop b =>
    unfold Act.run at e
    dsimp only at e
    split at e
    · injection e with e; subst e; exact same (same_refl _)
    · injection e with e; exact stay e.symm
  | weak b =>
    unfold Act.run at e
    dsimp only at e
    split at e
    · obtain ⟨m, lm, e⟩ := bind_ok e
      injection e with e; subst e
      exact same (same_set (node_live lm) _ (fun k ek => by injection ek with ek; subst ek; rfl))
    · injection e with e; exact stay e.symm
  | upgrade b =>
    unfold Act.run at e
    dsimp only at e
    split at e
    · split at e
      · rename_i m lm
        injection e with e; subst e
        exact same (same_set lm _ (fun k ek => by injection ek with ek; subst ek; rfl))
      · injection e with e; exact stay e.symm
    · injection e with e; exact stay e.symm
  | cloneWeak b =>
    unfold Act.run at e
    dsimp only at e
    split at e
    · split at e
      · rename_i m lm
        injection e with e; subst e
        exact same (same_set lm _ (fun k ek => by injection ek with ek; subst ek; rfl))
      · injection e with e; subst e; exact same (same_refl _)
    · injection e with e; exact stay e.symm
  | dropWeak b =>
    unfold Act.run at e
    dsimp only at e
    split at e
    · split at e
      · rename_i m lm
        split at e
        · cases e
        · injection e with e; subst e
          exact same (same_set lm _ (fun k ek => by injection ek with ek; subst ek; rfl))
      · injection e with e; subst e; exact same (same_refl _)
    · injection e with e; exact stay e.symm
  | step t =>
    unfold Act.run at e
    dsimp only at e
    split at e
    · obtain ⟨⟨h, st⟩, e1, e⟩ := bind_ok e
      injection e with e; subst e
      exact same (advance_same e1)
    · injection e with e; exact stay e.symm

/-- C85: a weak handle gives the cell back whole, or nothing: when it is upgraded the cell is as it was built, and the program holds it from then on. -/
theorem C85_upgrade {acts : List Act} {s : State} (e : State.init.runs acts = .ok s) {a : Nat} (m : a ∈ s.weaks) :
    (∃ n s', Live s.heap a n ∧ n.refs = n.built ∧ n.cnt = n.built.length ∧ Act.run s (.upgrade a) = .ok s' ∧ s'.held = a :: s.held) ∨
    ((∀ n, ¬ Live s.heap a n) ∧ Act.run s (.upgrade a) = .ok s) := by
  have i := inv_of_runs e
  by_cases ex : ∃ n, Live s.heap a n
  · obtain ⟨n, l⟩ := ex
    have cl : n.clean := i.core.cleanHeld l (.inr (List.count_pos_iff.mpr m))
    have e : s.heap[a]? = some (some n) := l
    refine .inl ⟨n, { s with heap := s.heap.set a (some { n with strong := n.strong + 1 }), held := a :: s.held }, l, cl.1, by rw [cl.2.1, cl.1], ?_, rfl⟩
    unfold Act.run
    dsimp only
    rw [if_pos m, e]
  · refine .inr ⟨fun n l => ex ⟨n, l⟩, ?_⟩
    unfold Act.run
    dsimp only
    rw [if_pos m]
    split
    · rename_i n e; exact absurd ⟨n, e⟩ ex
    · rfl

/-- C85, the other side: the loop that keeps deep trees from overflowing the stack works only if the counts do not change between its check and the release of the handle. When other threads release
their handles of the cells of a chain just then, every cell is released by the destructor of the one above it, so the nesting has no bound. -/
theorem C85_nesting (n : Nat) : ∃ acts s st, State.init.runs acts = .ok s ∧ s.threads[0]? = some st ∧ n ≤ nested st := by
  obtain ⟨s, e, len, lv, ln, hl, hn, th⟩ := chain_state n
  have la := live_lt ln
  let s1 : State := { s with held := s.held.erase n, threads := [[.drop n]] }
  have e1 : Act.run s (.drop n) = .ok s1 := by
    unfold Act.run
    dsimp only
    rw [if_pos hn, th]
    rfl
  have a2 : advance s1.heap [.drop n] = .ok (s.heap.set n none, [.each (if n = 0 then [] else [n - 1])]) := by
    show advance s.heap [.drop n] = _
    simp only [advance, node_ok ln]
    show Except.ok (s.heap.set n none, [Frame.each (link n).owned]) = _
    have : (link n).owned = if n = 0 then [] else [n - 1] := by
      unfold link Node.owned
      by_cases z : n = 0
      · simp [z]
      · simp [z]
    rw [this]
  let s2 : State := { s1 with heap := s.heap.set n none, threads := [[.each (if n = 0 then [] else [n - 1])]] }
  have e2 : Act.run s1 (.step 0) = .ok s2 := step_zero rfl a2
  obtain ⟨s', st', r, t', n'⟩ := unlucky_state n s2 [] (fun j hj => (live_set la).mpr (.inr ⟨by omega, lv j hj⟩)) (fun j hj => hl j hj) rfl
  refine ⟨chain n ++ ([.drop n, .step 0] ++ unlucky 1 n), s', _, ?_, t', ?_⟩
  · rw [runs_append e]
    have : s.runs [.drop n, .step 0] = .ok s2 := by
      rw [State.runs, e1]
      show State.runs s1 [.step 0] = _
      rw [State.runs, e2]
      rfl
    rw [runs_append this]
    exact r
  · have z : nested ([] : List Frame) = 0 := rfl
    have : nested (.each [] :: st') = nested st' + 1 := by simp [nested]
    omega

/-! ### Cases -/

/-- Two threads release a chain whose middle cell is held too: the handle of the middle is released while the destructor of the top has just seen that it is shared; a weak handle of the lower cell is there. -/
def sampleActs : List Act :=
  [.new [], .clone 0, .new [0, 0], .weak 1, .new [1], .new [2], .child 3 0, .child 2 0, .drop 3, .drop 2, .step 0, .step 0, .step 0, .step 1, .step 0]

/-- The top and the middle are gone, in nested destructors; the lower cell is held and whole. -/
example : (State.init.runs sampleActs).toOption = some ⟨[some ⟨[], 0, false, 2, 0, [], false⟩, some ⟨[0, 0], 2, false, 2, 1, [0, 0], false⟩, none, none], [1], [1], [[.each [1], .each []], []]⟩ := by decide +kernel

/-- The weak handle gives it back. When all is over it is there, with its child; after the release of its two handles nothing is left, although there is still a weak handle, which then gives nothing. -/
example : (State.init.runs (sampleActs ++ [.upgrade 1] ++ List.replicate 5 (.step 0))).toOption =
      some ⟨[some ⟨[], 0, false, 2, 0, [], false⟩, some ⟨[0, 0], 2, false, 2, 1, [0, 0], false⟩, none, none], [1, 1], [1], [[], []]⟩ ∧
    (State.init.runs (sampleActs ++ [.upgrade 1, .drop 1, .drop 1] ++ (List.range 30).flatMap (fun _ => [.step 0, .step 2, .step 3]) ++ [.upgrade 1])).toOption =
      some ⟨[none, none, none, none], [], [1], [[], [], [], []]⟩ := by decide +kernel

/-- In the middle of the release of a deep tree: the way back goes through the first slots. -/
example : (State.init.runs ([.new [], .clone 0, .new [0], .new [1], .new [2], .new [3, 0], .new [4], .clone 5, .new [5]] ++ [.drop 6, .drop 5] ++ [.step 1] ++ List.replicate 8 (.step 0))).toOption =
    some ⟨[some ⟨[], 0, false, 2, 0, [], false⟩, some ⟨[2], 1, false, 1, 0, [0], true⟩, some ⟨[3], 1, false, 1, 0, [1], true⟩, some ⟨[4], 1, false, 1, 0, [2], true⟩, some ⟨[3, 0], 2, true, 1, 0, [3, 0], false⟩,
      some ⟨[4], 1, true, 1, 0, [4], false⟩, none], [], [], [[.next 1 (some 0), .rest 5, .drop 5, .each []], []]⟩ := by decide +kernel

end Verif.DropPar
