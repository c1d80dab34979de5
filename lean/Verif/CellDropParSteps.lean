/-
Preservation of the invariant by the steps of running destructors, and the number that decreases with each step.
-/
import Verif.CellDropParLemmas
set_option linter.unusedVariables false
namespace Verif.DropPar

/-! ### The invariant of running destructors -/

/-- The first slot of the cell was not replaced. -/
def Fresh (h : Heap) (a : Nat) : Prop := ∀ n, Live h a n → n.turned = false

def FrameOk (h : Heap) : Frame → Prop
  | .drop a => ∀ n, Live h a n → n.turned = true → n.owned = []
  | .each cs => ∀ c ∈ cs, Fresh h c
  | .deep c => Fresh h c
  | .rest c => Fresh h c ∧ ∃ n, Live h c n ∧ ¬ n.clean
  | .main p => Fresh h p
  | .loop _ c => Fresh h c
  | .next _ keep => ∀ c ∈ keep.toList, Fresh h c

/-- The handle that a frame borrows is that of the frame below. -/
def Link : Frame → List Frame → Prop
  | .deep c, st => ∃ st', st = .drop c :: st'
  | .rest c, st => ∃ st', st = .drop c :: st'
  | _, _ => True

def StackOk (h : Heap) : List Frame → Prop
  | [] => True
  | f :: st => FrameOk h f ∧ Link f st ∧ StackOk h st

theorem fresh_keep {h h' : Heap} {a : Nat} (f : Fresh h a) (k : Keep1 h h' a) : Fresh h' a := by
  intro n l
  cases e : n.turned with
  | false => rfl
  | true =>
    have := f n (k.1 n l e)
    rw [e] at this
    cases this

theorem stackOk_keep {h h' : Heap} : ∀ (st : List Frame), StackOk h st → (∀ c ∈ stackH st, Keep1 h h' c) → StackOk h' st := by
  intro st
  induction st with
  | nil => intros; trivial
  | cons f st ih =>
    intro ok k
    have k' : ∀ c ∈ stackH st, Keep1 h h' c := fun c m => k c (by unfold stackH at *; rw [List.flatMap_cons]; exact List.mem_append_right _ m)
    have kf : ∀ c ∈ f.handles, Keep1 h h' c := fun c m => k c (by unfold stackH at *; rw [List.flatMap_cons]; exact List.mem_append_left _ m)
    have link : ∀ c, (∃ st', st = .drop c :: st') → Keep1 h h' c := by
      rintro c ⟨st', rfl⟩
      exact k' c (by simp [stackH, Frame.handles])
    refine ⟨?_, ok.2.1, ih ok.2.2 k'⟩
    cases f with
    | drop a =>
      intro n l t
      exact ok.1 n ((kf a (by simp [Frame.handles])).1 n l t) t
    | each cs => exact fun c m => fresh_keep (ok.1 c m) (kf c m)
    | deep c => exact fresh_keep ok.1 (link c ok.2.1)
    | rest c =>
      have kc := link c ok.2.1
      obtain ⟨f, n, l, d⟩ := ok.1
      exact ⟨fresh_keep f kc, n, kc.2 n l d, d⟩
    | main p => exact fresh_keep ok.1 (kf p (by simp [Frame.handles]))
    | loop p c => exact fresh_keep ok.1 (kf c (by simp [Frame.handles]))
    | next p keep => exact fun c m => fresh_keep (ok.1 c m) (kf c (by simp only [Frame.handles]; exact List.mem_cons_of_mem _ m))

/-! ### Weights -/

def nodeW : Option Node → Nat
  | none => 0
  | some n => 1 + 4 * n.owned.length + (if n.turned then 0 else 1)

def heapW (h : Heap) : Nat := (h.map nodeW).sum

def Frame.w : Frame → Nat
  | .drop _ => 1
  | .each cs => 1 + 3 * cs.length
  | .deep _ => 1
  | .rest _ => 1
  | .main _ => 2
  | .loop _ _ => 5
  | .next _ keep => 2 + 2 * keep.toList.length

def stackW (st : List Frame) : Nat := (st.map Frame.w).sum

theorem heapW_set {h : Heap} {a : Nat} {n : Node} (l : Live h a n) (x : Option Node) : heapW (h.set a x) + nodeW (some n) = heapW h + nodeW x :=
  sum_set nodeW x (some n) h a l

/-! ### Slots -/

theorem count_cons1 (b x : Nat) (l : List Nat) : (b :: l).count x = cnt1 b x + l.count x := by
  rw [List.count_cons]
  unfold cnt1
  by_cases e : x = b
  · subst e; simp; omega
  · rw [if_neg e, if_neg (by simpa using fun e' => e e'.symm)]; omega

theorem slot_ok {n : Node} {i : Nat} (l : i < n.refs.length) : n.slot i = .ok (n.refs[i]) := by
  unfold Node.slot
  rw [List.getElem?_eq_getElem l]

theorem take_first {l : List Nat} {k : Nat} (p : 0 < k) (q : 0 < l.length) : l.take k = l[0] :: (l.take k).drop 1 := by
  cases l with
  | nil => simp at q
  | cons x l =>
    cases k with
    | zero => omega
    | succ k => simp

theorem take_last {l : List Nat} {k : Nat} (p : 0 < k) (q : k ≤ l.length) : l.take k = l.take (k - 1) ++ [l[k - 1]] := by
  have e : k = (k - 1) + 1 := by omega
  conv => lhs; rw [e]
  exact List.take_succ_eq_append_getElem (by omega)

theorem owned_eq {n : Node} (p : 0 < n.cnt) (q : n.noFirst = false) (sh : n.cnt ≤ n.refs.length) : n.owned = n.refs[0]'(by omega) :: n.others := by
  unfold Node.owned Node.others
  rw [q]
  exact take_first p (by omega)

theorem takeFirst_spec {h : Heap} {a : Nat} {n : Node} (u : n.unique = true) (sh : n.cnt ≤ n.refs.length) :
    (h.takeFirst a n = .ok (none, h) ∧ (n.cnt ≤ 1 → n.owned = [])) ∨
    ∃ f, h.takeFirst a n = .ok (some f, h.set a (some { n with noFirst := true })) ∧ n.noFirst = false ∧ n.owned = f :: n.others := by
  unfold Heap.takeFirst
  by_cases c : 0 < n.cnt ∧ n.noFirst = false
  · rw [if_pos c, slot_ok (by omega)]
    refine .inr ⟨n.refs[0]'(by omega), ?_, c.2, owned_eq c.1 c.2 sh⟩
    simp only [Heap.change, u, if_true]
    rfl
  · rw [if_neg c]
    refine .inl ⟨rfl, fun k => ?_⟩
    unfold Node.owned
    cases e : n.noFirst with
    | true =>
      simp only [if_true]
      apply List.drop_eq_nil_of_le
      simp only [List.length_take]
      omega
    | false =>
      have : n.cnt = 0 := by
        rcases Nat.eq_zero_or_pos n.cnt with z | z
        · exact z
        · exact absurd ⟨z, e⟩ c
      simp [this]

theorem replaceFirst_spec {h : Heap} {a p : Nat} {n : Node} (u : n.unique = true) (sh : n.cnt ≤ n.refs.length) :
    h.replaceFirst a n p = .ok (none, h) ∨
    ∃ f, h.replaceFirst a n p = .ok (some f, h.set a (some { n with refs := n.refs.set 0 p, turned := true })) ∧ n.owned = f :: n.others ∧
      Node.owned { n with refs := n.refs.set 0 p, turned := true } = p :: n.others ∧ Node.others { n with refs := n.refs.set 0 p, turned := true } = n.others := by
  unfold Heap.replaceFirst
  by_cases c : 0 < n.cnt ∧ n.noFirst = false
  · rw [if_pos c, slot_ok (by omega)]
    have eo : Node.others { n with refs := n.refs.set 0 p, turned := true } = n.others := by
      unfold Node.others
      dsimp only
      cases n.refs with
      | nil => rfl
      | cons z l =>
        cases n.cnt with
        | zero => rfl
        | succ k => simp
    refine .inr ⟨n.refs[0]'(by omega), ?_, owned_eq c.1 c.2 sh, ?_, eo⟩
    · simp only [Heap.change, u, if_true]
      rfl
    · have := owned_eq (n := { n with refs := n.refs.set 0 p, turned := true }) c.1 c.2 (by simpa using sh)
      rw [this, eo]
      simp
  · rw [if_neg c]
    exact .inl rfl

theorem takeNext_spec {h : Heap} {a : Nat} {n : Node} (u : n.unique = true) (sh : n.cnt ≤ n.refs.length) :
    (h.takeNext a n = .ok (none, h) ∧ n.cnt ≤ 1) ∨
    ∃ x, h.takeNext a n = .ok (some x, h.set a (some { n with cnt := n.cnt - 1 })) ∧ n.owned = Node.owned { n with cnt := n.cnt - 1 } ++ [x] ∧
      n.others = Node.others { n with cnt := n.cnt - 1 } ++ [x] ∧ 1 < n.cnt := by
  unfold Heap.takeNext
  by_cases c : 1 < n.cnt
  · rw [if_pos c, slot_ok (by omega)]
    have t := take_last (l := n.refs) (k := n.cnt) (by omega) sh
    have eo : n.others = Node.others { n with cnt := n.cnt - 1 } ++ [n.refs[n.cnt - 1]'(by omega)] := by
      unfold Node.others
      rw [t, List.drop_append_of_le_length (by simp only [List.length_take]; omega)]
    refine .inr ⟨n.refs[n.cnt - 1]'(by omega), ?_, ?_, eo, c⟩
    · simp only [Heap.change, u, if_true]
      rfl
    · unfold Node.owned
      split
      · exact eo
      · exact t
  · rw [if_neg c]
    exact .inl ⟨rfl, by omega⟩

/-! ### The three changes of a cell -/

theorem unique_iff {n : Node} : n.unique = true ↔ n.strong = 1 ∧ n.weak = 0 := by
  unfold Node.unique
  rw [decide_eq_true_iff]

theorem fresh_child {h : Heap} {H E W : Nat → Nat} (c : Core h H E W) {a f : Nat} {n : Node} (l : Live h a n) (t : n.turned = false) (m : f ∈ n.owned) : Fresh h f := by
  intro k lk
  cases e : k.turned with
  | false => rfl
  | true =>
    have := (c.turned a n l f k lk e).2 m
    rw [t] at this
    cases this

theorem fresh_other {h : Heap} {H E W : Nat → Nat} (c : Core h H E W) {a f : Nat} {n : Node} (l : Live h a n) (m : f ∈ n.others) : Fresh h f := by
  intro k lk
  cases e : k.turned with
  | false => rfl
  | true => exact absurd m (c.turned a n l f k lk e).1

theorem fresh_set {h : Heap} {a f : Nat} {x : Option Node} (la : a < h.length) (ne : f ≠ a) (fr : Fresh h f) : Fresh (h.set a x) f := by
  intro k lk
  rcases (live_set la).mp lk with ⟨e, _⟩ | ⟨_, l⟩
  · exact absurd e ne
  · exact fr k l

theorem fresh_same {h : Heap} {a : Nat} {n' : Node} (la : a < h.length) (t : n'.turned = false) : Fresh (h.set a (some n')) a := by
  intro k lk
  rcases (live_set la).mp lk with ⟨_, e⟩ | ⟨ne, l⟩
  · injection e with e
    exact e ▸ t
  · exact absurd rfl ne

/-- The only handle of a cell is `a`'s: its first child is taken. -/
theorem Core.takeFirst {h : Heap} {H E W : Nat → Nat} (c : Core h H E W) {a : Nat} {n : Node} {R : Nat → Nat} {f : Nat} (l : Live h a n) (u : n.unique = true)
    (hR : ∀ x, H x = cnt1 a x + R x) (hE : ∀ x, E x ≤ R x) (nf : n.noFirst = false) (eo : n.owned = f :: n.others) :
    Core (h.set a (some { n with noFirst := true })) (fun x => cnt1 a x + (cnt1 f x + R x)) E W ∧ f ≠ a ∧ R a = 0 ∧
      heapW (h.set a (some { n with noFirst := true })) + 4 = heapW h := by
  obtain ⟨u1, u2⟩ := unique_iff.mp u
  obtain ⟨z, i0⟩ := c.single l u1 hR
  have fm : f ∈ n.owned := by rw [eo]; exact List.mem_cons_self
  have ne : f ≠ a := fun e => by have := indeg_pos l (e ▸ fm); omega
  have e' : Node.owned { n with noFirst := true } = n.others := rfl
  refine ⟨c.change l u1 u2 hR hE (R' := fun x => cnt1 f x + R x) (fun x => rfl) ?_ rfl rfl (c.shape a n l) (fun q => by cases q.2.2.1) ?_, ne, z, ?_⟩
  · intro x
    rw [e', eo, count_cons1, hR]
    omega
  · intro x k _ lx t
    have := (c.turned a n l x k lx t).1
    exact ⟨this, fun m => absurd m this⟩
  · have := heapW_set l (some { n with noFirst := true })
    simp only [nodeW, e', eo, List.length_cons] at this
    omega

/-- The last child is taken. -/
theorem Core.takeNext {h : Heap} {H E W : Nat → Nat} (c : Core h H E W) {a : Nat} {n : Node} {R : Nat → Nat} {f : Nat} (l : Live h a n) (u : n.unique = true)
    (hR : ∀ x, H x = cnt1 a x + R x) (hE : ∀ x, E x ≤ R x) (eo : n.owned = Node.owned { n with cnt := n.cnt - 1 } ++ [f])
    (et : n.others = Node.others { n with cnt := n.cnt - 1 } ++ [f]) (k1 : 1 < n.cnt) :
    Core (h.set a (some { n with cnt := n.cnt - 1 })) (fun x => cnt1 a x + (cnt1 f x + R x)) E W ∧ f ≠ a ∧ R a = 0 ∧
      heapW (h.set a (some { n with cnt := n.cnt - 1 })) + 4 = heapW h ∧ ¬ Node.clean { n with cnt := n.cnt - 1 } := by
  obtain ⟨u1, u2⟩ := unique_iff.mp u
  obtain ⟨z, i0⟩ := c.single l u1 hR
  have fm : f ∈ n.owned := by rw [eo]; simp
  have ne : f ≠ a := fun e => by have := indeg_pos l (e ▸ fm); omega
  have sh := c.shape a n l
  have dn : ¬ Node.clean { n with cnt := n.cnt - 1 } := fun q => by
    have : n.cnt - 1 = n.refs.length := q.2.1
    omega
  refine ⟨c.change l u1 u2 hR hE (R' := fun x => cnt1 f x + R x) (fun x => rfl) ?_ rfl rfl (by show n.cnt - 1 ≤ n.refs.length; omega) dn ?_, ne, z, ?_, dn⟩
  · intro x
    rw [eo, List.count_append, count_cons1, List.count_nil, hR]
    omega
  · intro x k _ lx t
    have := c.turned a n l x k lx t
    exact ⟨fun m => this.1 (by rw [et]; exact List.mem_append_left _ m), fun m => this.2 (by rw [eo]; exact List.mem_append_left _ m)⟩
  · have := heapW_set l (some { n with cnt := n.cnt - 1 })
    have el : n.owned.length = (Node.owned { n with cnt := n.cnt - 1 }).length + 1 := by
      conv => lhs; rw [eo]
      simp
    simp only [nodeW, el] at this
    omega

/-- The first child is replaced by the parent, whose handle is given away. -/
theorem Core.replaceFirst {h : Heap} {H E W : Nat → Nat} (c : Core h H E W) {a p : Nat} {n : Node} {R : Nat → Nat} {f : Nat} (l : Live h a n) (u : n.unique = true)
    (hR : ∀ x, H x = cnt1 a x + (cnt1 p x + R x)) (hE : ∀ x, E x ≤ R x) (t0 : n.turned = false) (eo : n.owned = f :: n.others)
    (eo' : Node.owned { n with refs := n.refs.set 0 p, turned := true } = p :: n.others)
    (et : Node.others { n with refs := n.refs.set 0 p, turned := true } = n.others) :
    Core (h.set a (some { n with refs := n.refs.set 0 p, turned := true })) (fun x => cnt1 a x + (cnt1 f x + R x)) E W ∧ f ≠ a ∧ R a = 0 ∧
      heapW (h.set a (some { n with refs := n.refs.set 0 p, turned := true })) + 1 = heapW h := by
  obtain ⟨u1, u2⟩ := unique_iff.mp u
  obtain ⟨z, i0⟩ := c.single l u1 hR
  have fm : f ∈ n.owned := by rw [eo]; exact List.mem_cons_self
  have ne : f ≠ a := fun e => by have := indeg_pos l (e ▸ fm); omega
  refine ⟨c.change l u1 u2 hR (fun x => by have := hE x; omega) (R' := fun x => cnt1 f x + R x) (fun x => rfl) ?_ rfl rfl (by simpa using c.shape a n l) (fun q => by cases q.2.2.2) ?_, ne, by omega, ?_⟩
  · intro x
    rw [eo', eo, count_cons1, count_cons1, hR]
    omega
  · intro x k _ lx t
    have := (c.turned a n l x k lx t).1
    rw [et]
    exact ⟨this, fun _ => rfl⟩
  · have := heapW_set l (some { n with refs := n.refs.set 0 p, turned := true })
    simp only [nodeW, eo', eo, List.length_cons, t0] at this
    simp at this
    omega

/-! ### A step of a thread -/

/-- What a step keeps: `R` counts the handles outside of the thread. -/
def StepOk (h : Heap) (st : List Frame) (E W R : Nat → Nat) : Prop :=
  ∃ h' st', advance h st = .ok (h', st') ∧ Core h' (fun x => (stackH st').count x + R x) E W ∧ StackOk h' st' ∧ (∀ x, 0 < R x → Keep1 h h' x) ∧
    (st ≠ [] → heapW h' + stackW st' < heapW h + stackW st)

theorem node_ok {h : Heap} {a : Nat} {n : Node} (l : Live h a n) : h.node a = .ok n := by
  unfold Live at l
  unfold Heap.node
  rw [l]

theorem Core.live {h : Heap} {H E W : Nat → Nat} (c : Core h H E W) {a : Nat} (p : 0 < H a) : ∃ n, Live h a n :=
  live_of_strongAt (by have := c.count a; omega)

theorem Core.eq {h : Heap} {H H' E W : Nat → Nat} (c : Core h H E W) (e : ∀ x, H' x = H x) : Core h H' E W := by
  have : H' = H := funext e
  rw [this]
  exact c

theorem keep_same (h : Heap) (c : Nat) : Keep1 h h c := ⟨fun _ l _ => l, fun _ l _ => l⟩

/-- The frames below do not see the change of a cell that only the top frame refers to. -/
theorem below {h : Heap} {a : Nat} {x : Option Node} {st : List Frame} {R : Nat → Nat} (la : a < h.length) (ok : StackOk h st) (z : (stackH st).count a + R a = 0) :
    StackOk (h.set a x) st ∧ ∀ c, 0 < R c → Keep1 h (h.set a x) c :=
  ⟨stackOk_keep st ok (fun c m => keep_set (R := fun x => (stackH st).count x) la (by omega) c (List.count_pos_iff.mpr m)), keep_set la (by omega)⟩

theorem stackH_cons (f : Frame) (st : List Frame) (x : Nat) : (stackH (f :: st)).count x = f.handles.count x + (stackH st).count x := by
  unfold stackH
  rw [List.flatMap_cons, List.count_append]

theorem stackW_cons (f : Frame) (st : List Frame) : stackW (f :: st) = f.w + stackW st := by
  unfold stackW
  rw [List.map_cons, List.sum_cons]

theorem step_drop {h : Heap} {a : Nat} {st : List Frame} {H E W R : Nat → Nat} (c : Core h H E W) (ok : StackOk h (.drop a :: st))
    (hH : ∀ x, H x = (stackH (.drop a :: st)).count x + R x) (hE : ∀ x, E x ≤ R x) : StepOk h (.drop a :: st) E W R := by
  have hR : ∀ x, H x = cnt1 a x + ((stackH st).count x + R x) := fun x => by
    rw [hH, stackH_cons, Frame.handles, count_cons1, List.count_nil]; omega
  obtain ⟨n, l⟩ := c.live (a := a) (by rw [hR, cnt1_self]; omega)
  have ps := c.pos a n l
  unfold StepOk
  simp only [advance, node_ok l]
  show ∃ h' st', (if n.strong = 0 then _ else _) = _ ∧ _
  rw [if_neg (by omega)]
  by_cases k : 1 < n.strong
  · rw [if_pos k]
    have cl : n.clean := Classical.byContradiction fun d => by have := (c.dirty a n l d).1; omega
    refine ⟨_, _, rfl, ?_, ?_, fun x _ => keep_clean l cl (n' := { n with strong := n.strong - 1 }) cl x, fun _ => ?_⟩
    · exact c.counts l cl (n.strong - 1) n.weak (by omega) (by rw [hR, cnt1_self]; omega) (c.weak a n l) (fun x ne => by rw [hR, cnt1_ne ne]; omega) (fun _ _ => rfl) (fun _ _ => rfl)
    · exact stackOk_keep st ok.2.2 (fun x _ => keep_clean l cl (n' := { n with strong := n.strong - 1 }) cl x)
    · have := heapW_set l (some { n with strong := n.strong - 1 })
      have e : nodeW (some { n with strong := n.strong - 1 }) = nodeW (some n) := rfl
      rw [e] at this
      rw [stackW_cons, Frame.w]
      omega
  · rw [if_neg k]
    have s1 : n.strong = 1 := by omega
    have z := (c.single l s1 hR).1
    obtain ⟨b1, b2⟩ := below (x := none) (live_lt l) ok.2.2 z
    refine ⟨_, _, rfl, (c.release l s1 hR).eq (fun x => ?_), ⟨fun x m => ?_, trivial, b1⟩, b2, fun _ => ?_⟩
    · rw [stackH_cons, Frame.handles]; omega
    · have t : n.turned = false := by
        cases e : n.turned with
        | false => rfl
        | true =>
          have := ok.1 n l e
          rw [this] at m
          cases m
      exact fresh_set (live_lt l) (fun e => by have := indeg_pos l (e ▸ m); have := (c.single l s1 hR).2; omega) (fresh_child c l t m)
    · have := heapW_set l none
      simp only [nodeW] at this
      rw [stackW_cons, stackW_cons, Frame.w, Frame.w]
      omega

theorem step_each {h : Heap} {cs : List Nat} {st : List Frame} {H E W R : Nat → Nat} (c : Core h H E W) (ok : StackOk h (.each cs :: st))
    (hH : ∀ x, H x = (stackH (.each cs :: st)).count x + R x) : StepOk h (.each cs :: st) E W R := by
  cases cs with
  | nil =>
    refine ⟨_, _, rfl, c.eq (fun x => ?_), ok.2.2, fun x _ => keep_same h x, fun _ => ?_⟩
    · rw [hH, stackH_cons, Frame.handles, List.count_nil]; omega
    · rw [stackW_cons, Frame.w]; omega
  | cons d ds =>
    have fd : Fresh h d := ok.1 d List.mem_cons_self
    refine ⟨_, _, rfl, c.eq (fun x => ?_), ⟨fd, ⟨_, rfl⟩, fun n l t => ?_, trivial, fun y m => ok.1 y (List.mem_cons_of_mem _ m), trivial, ok.2.2⟩, fun x _ => keep_same h x, fun _ => ?_⟩
    · rw [hH, stackH_cons, stackH_cons, stackH_cons, stackH_cons]
      simp only [Frame.handles, count_cons1, List.count_nil]
      omega
    · have := fd n l
      rw [t] at this
      cases this
    · simp only [stackW_cons, Frame.w, List.length_cons]
      omega

theorem drop_ok {h : Heap} {a : Nat} (f : Fresh h a) : FrameOk h (.drop a) := by
  intro n l t
  have := f n l
  rw [t] at this
  cases this

theorem step_deep {h : Heap} {a : Nat} {st : List Frame} {H E W R : Nat → Nat} (c : Core h H E W) (ok : StackOk h (.deep a :: st))
    (hH : ∀ x, H x = (stackH (.deep a :: st)).count x + R x) (hE : ∀ x, E x ≤ R x) : StepOk h (.deep a :: st) E W R := by
  obtain ⟨fa, ⟨st', e⟩, _, _, ok'⟩ : Fresh h a ∧ (∃ st', st = .drop a :: st') ∧ True ∧ True ∧ StackOk h st := ⟨ok.1, ok.2.1, trivial, trivial, ok.2.2⟩
  subst e
  have hR : ∀ x, H x = cnt1 a x + ((stackH st').count x + R x) := fun x => by
    rw [hH, stackH_cons, stackH_cons]
    simp only [Frame.handles, count_cons1, List.count_nil]
    omega
  obtain ⟨n, l⟩ := c.live (a := a) (by rw [hR, cnt1_self]; omega)
  have pop : ∃ h' st'', (Except.ok (h, Frame.drop a :: st') : Except DropErr (Heap × List Frame)) = .ok (h', st'') ∧ Core h' (fun x => (stackH st'').count x + R x) E W ∧ StackOk h' st'' ∧
      (∀ x, 0 < R x → Keep1 h h' x) ∧ (Frame.deep a :: .drop a :: st' ≠ [] → heapW h' + stackW st'' < heapW h + stackW (.deep a :: .drop a :: st')) := by
    refine ⟨_, _, rfl, c.eq (fun x => ?_), ok', fun x _ => keep_same h x, fun _ => ?_⟩
    · rw [hH]
      rw [stackH_cons (.deep a)]
      simp only [Frame.handles, List.count_nil]
      omega
    · rw [stackW_cons (.deep a), Frame.w]; omega
  unfold StepOk
  simp only [advance, node_ok l]
  show ∃ h' st', (if n.unique = true then _ else _) = _ ∧ _
  cases u : n.unique with
  | false => exact pop
  | true =>
    rw [if_pos rfl]
    rcases takeFirst_spec (h := h) (a := a) u (c.shape a n l) with ⟨e, _⟩ | ⟨f, e, nf, eo⟩
    · rw [e]
      exact pop
    · rw [e]
      obtain ⟨c', ne, z, hw⟩ := c.takeFirst l u hR (fun x => by have := hE x; omega) nf eo
      have la := live_lt l
      have tn : n.turned = false := fa n l
      obtain ⟨b1, b2⟩ := below (x := some { n with noFirst := true }) la ok'.2.2 z
      have fs : Fresh (h.set a (some { n with noFirst := true })) a := fresh_same la tn
      refine ⟨_, _, rfl, c'.eq (fun x => ?_), ⟨fresh_set la ne (fresh_child c l tn (by rw [eo]; exact List.mem_cons_self)), trivial,
        ⟨fs, _, (live_set la).mpr (.inl ⟨rfl, rfl⟩), fun q => by cases q.2.2.1⟩, ⟨_, rfl⟩, drop_ok fs, trivial, b1⟩, b2, fun _ => ?_⟩
      · simp only [stackH_cons, Frame.handles, count_cons1, List.count_nil]
        omega
      · simp only [stackW_cons, Frame.w]
        omega

theorem step_rest {h : Heap} {a : Nat} {st : List Frame} {H E W R : Nat → Nat} (c : Core h H E W) (ok : StackOk h (.rest a :: st))
    (hH : ∀ x, H x = (stackH (.rest a :: st)).count x + R x) (hE : ∀ x, E x ≤ R x) : StepOk h (.rest a :: st) E W R := by
  obtain ⟨⟨fa, n, l, d⟩, ⟨st', e⟩, ok'⟩ : (Fresh h a ∧ ∃ n, Live h a n ∧ ¬ n.clean) ∧ (∃ st', st = .drop a :: st') ∧ StackOk h st := ⟨ok.1, ok.2.1, ok.2.2⟩
  subst e
  have hR : ∀ x, H x = cnt1 a x + ((stackH st').count x + R x) := fun x => by
    rw [hH, stackH_cons, stackH_cons]
    simp only [Frame.handles, count_cons1, List.count_nil]
    omega
  have u : n.unique = true := unique_iff.mpr ⟨(c.dirty a n l d).1, by rw [c.weak a n l]; exact (c.dirty a n l d).2.2.1⟩
  unfold StepOk
  simp only [advance, node_ok l]
  show ∃ h' st', (h.takeNext a n >>= _) = _ ∧ _
  rcases takeNext_spec (h := h) (a := a) u (c.shape a n l) with ⟨e, _⟩ | ⟨f, e, eo, et, k1⟩
  · rw [e]
    refine ⟨_, _, rfl, c.eq (fun x => ?_), ok', fun x _ => keep_same h x, fun _ => ?_⟩
    · rw [hH]
      rw [stackH_cons (.rest a)]
      simp only [Frame.handles, List.count_nil]
      omega
    · rw [stackW_cons (.rest a), Frame.w]; omega
  · rw [e]
    obtain ⟨c', ne, z, hw, dn⟩ := c.takeNext l u hR (fun x => by have := hE x; omega) eo et k1
    have la := live_lt l
    have tn : n.turned = false := fa n l
    obtain ⟨b1, b2⟩ := below (x := some { n with cnt := n.cnt - 1 }) la ok'.2.2 z
    have fs : Fresh (h.set a (some { n with cnt := n.cnt - 1 })) a := fresh_same la tn
    refine ⟨_, _, rfl, c'.eq (fun x => ?_), ⟨fresh_set la ne (fresh_other c l (by rw [et]; simp)), trivial,
      ⟨fs, _, (live_set la).mpr (.inl ⟨rfl, rfl⟩), dn⟩, ⟨_, rfl⟩, drop_ok fs, trivial, b1⟩, b2, fun _ => ?_⟩
    · simp only [stackH_cons, Frame.handles, count_cons1, List.count_nil]
      omega
    · simp only [stackW_cons, Frame.w]
      omega

theorem step_main {h : Heap} {a : Nat} {st : List Frame} {H E W R : Nat → Nat} (c : Core h H E W) (ok : StackOk h (.main a :: st))
    (hH : ∀ x, H x = (stackH (.main a :: st)).count x + R x) (hE : ∀ x, E x ≤ R x) : StepOk h (.main a :: st) E W R := by
  have fa : Fresh h a := ok.1
  have hR : ∀ x, H x = cnt1 a x + ((stackH st).count x + R x) := fun x => by
    rw [hH, stackH_cons, Frame.handles, count_cons1, List.count_nil]; omega
  obtain ⟨n, l⟩ := c.live (a := a) (by rw [hR, cnt1_self]; omega)
  have pop : ∃ h' st'', (Except.ok (h, Frame.drop a :: st) : Except DropErr (Heap × List Frame)) = .ok (h', st'') ∧ Core h' (fun x => (stackH st'').count x + R x) E W ∧ StackOk h' st'' ∧
      (∀ x, 0 < R x → Keep1 h h' x) ∧ (Frame.main a :: st ≠ [] → heapW h' + stackW st'' < heapW h + stackW (.main a :: st)) := by
    refine ⟨_, _, rfl, c.eq (fun x => ?_), ⟨drop_ok fa, trivial, ok.2.2⟩, fun x _ => keep_same h x, fun _ => ?_⟩
    · rw [hH, stackH_cons, stackH_cons]; rfl
    · simp only [stackW_cons, Frame.w]; omega
  unfold StepOk
  simp only [advance, node_ok l]
  show ∃ h' st', (if n.unique = true then _ else _) = _ ∧ _
  cases u : n.unique with
  | false => exact pop
  | true =>
    rw [if_pos rfl]
    rcases takeFirst_spec (h := h) (a := a) u (c.shape a n l) with ⟨e, _⟩ | ⟨f, e, nf, eo⟩
    · rw [e]
      exact pop
    · rw [e]
      obtain ⟨c', ne, z, hw⟩ := c.takeFirst l u hR (fun x => by have := hE x; omega) nf eo
      have la := live_lt l
      obtain ⟨b1, b2⟩ := below (x := some { n with noFirst := true }) la ok.2.2 z
      refine ⟨_, _, rfl, c'.eq (fun x => ?_), ⟨fresh_set la ne (fresh_child c l (fa n l) (by rw [eo]; exact List.mem_cons_self)), trivial, b1⟩, b2, fun _ => ?_⟩
      · simp only [stackH_cons, Frame.handles, count_cons1, List.count_nil]
        omega
      · simp only [stackW_cons, Frame.w]
        omega

theorem step_loop {h : Heap} {p a : Nat} {st : List Frame} {H E W R : Nat → Nat} (c : Core h H E W) (ok : StackOk h (.loop p a :: st))
    (hH : ∀ x, H x = (stackH (.loop p a :: st)).count x + R x) (hE : ∀ x, E x ≤ R x) : StepOk h (.loop p a :: st) E W R := by
  have fa : Fresh h a := ok.1
  have hR : ∀ x, H x = cnt1 a x + (cnt1 p x + ((stackH st).count x + R x)) := fun x => by
    rw [hH, stackH_cons, Frame.handles, count_cons1, count_cons1, List.count_nil]; omega
  obtain ⟨n, l⟩ := c.live (a := a) (by rw [hR, cnt1_self]; omega)
  unfold StepOk
  simp only [advance, node_ok l]
  show ∃ h' st', (if n.unique = true then _ else _) = _ ∧ _
  cases u : n.unique with
  | false =>
    refine ⟨_, _, rfl, c.eq (fun x => ?_), ⟨fun y m => ?_, trivial, ok.2.2⟩, fun x _ => keep_same h x, fun _ => ?_⟩
    · rw [hH, stackH_cons, stackH_cons]; rfl
    · have : y = a := by simpa using m
      subst this
      exact fa
    · simp only [stackW_cons, Frame.w, Option.toList, List.length_cons, List.length_nil]; omega
  | true =>
    rw [if_pos rfl]
    rcases replaceFirst_spec (h := h) (a := a) (p := p) u (c.shape a n l) with e | ⟨f, e, eo, eo', et⟩
    · rw [e]
      refine ⟨_, _, rfl, c.eq (fun x => ?_), ⟨drop_ok fa, trivial, fun y m => (by cases m), trivial, ok.2.2⟩, fun x _ => keep_same h x, fun _ => ?_⟩
      · rw [hR]
        simp only [stackH_cons, Frame.handles, count_cons1, List.count_nil, Option.toList]
        omega
      · simp only [stackW_cons, Frame.w, Option.toList, List.length_nil]; omega
    · rw [e]
      obtain ⟨c', ne, z, hw⟩ := c.replaceFirst l u hR (fun x => by have := hE x; omega) (fa n l) eo eo' et
      have la := live_lt l
      obtain ⟨b1, b2⟩ := below (x := some { n with refs := n.refs.set 0 p, turned := true }) la ok.2.2 z
      refine ⟨_, _, rfl, c'.eq (fun x => ?_), ⟨fresh_set la ne (fresh_child c l (fa n l) (by rw [eo]; exact List.mem_cons_self)), trivial, b1⟩, b2, fun _ => ?_⟩
      · simp only [stackH_cons, Frame.handles, count_cons1, List.count_nil]
        omega
      · simp only [stackW_cons, Frame.w]
        omega

theorem stackH_keep (keep : Option Nat) (st : List Frame) (x : Nat) : (stackH (keep.toList.map Frame.drop ++ st)).count x = keep.toList.count x + (stackH st).count x := by
  cases keep with
  | none => simp
  | some k => simp [Option.toList, stackH_cons, Frame.handles]

theorem stackW_keep (keep : Option Nat) (st : List Frame) : stackW (keep.toList.map Frame.drop ++ st) = keep.toList.length + stackW st := by
  cases keep with
  | none => simp
  | some k => simp [Option.toList, stackW_cons, Frame.w]

theorem stackOk_keeps {h : Heap} {keep : Option Nat} {st : List Frame} (f : ∀ c ∈ keep.toList, Fresh h c) (ok : StackOk h st) : StackOk h (keep.toList.map Frame.drop ++ st) := by
  cases keep with
  | none => exact ok
  | some k => exact ⟨drop_ok (f k (by simp)), trivial, ok⟩

theorem step_next {h : Heap} {a : Nat} {keep : Option Nat} {st : List Frame} {H E W R : Nat → Nat} (c : Core h H E W) (ok : StackOk h (.next a keep :: st))
    (hH : ∀ x, H x = (stackH (.next a keep :: st)).count x + R x) (hE : ∀ x, E x ≤ R x) : StepOk h (.next a keep :: st) E W R := by
  have fk : ∀ c ∈ keep.toList, Fresh h c := ok.1
  have hR : ∀ x, H x = cnt1 a x + (keep.toList.count x + (stackH st).count x + R x) := fun x => by
    rw [hH, stackH_cons, Frame.handles, count_cons1]; omega
  obtain ⟨n, l⟩ := c.live (a := a) (by rw [hR, cnt1_self]; omega)
  have pop : FrameOk h (.drop a) → ∃ h' st'', (Except.ok (h, Frame.drop a :: (keep.toList.map Frame.drop ++ st)) : Except DropErr (Heap × List Frame)) = .ok (h', st'') ∧
      Core h' (fun x => (stackH st'').count x + R x) E W ∧ StackOk h' st'' ∧
      (∀ x, 0 < R x → Keep1 h h' x) ∧ (Frame.next a keep :: st ≠ [] → heapW h' + stackW st'' < heapW h + stackW (.next a keep :: st)) := by
    intro fo
    refine ⟨_, _, rfl, c.eq (fun x => ?_), ⟨fo, trivial, stackOk_keeps fk ok.2.2⟩, fun x _ => keep_same h x, fun _ => ?_⟩
    · rw [hR, stackH_cons, stackH_keep, Frame.handles, count_cons1, List.count_nil]; omega
    · simp only [stackW_cons, stackW_keep, Frame.w]; omega
  unfold StepOk
  simp only [advance, node_ok l]
  show ∃ h' st', (if n.unique = true then _ else _) = _ ∧ _
  cases u : n.unique with
  | false =>
    refine pop (fun m lm t => ?_)
    have e := live_inj l lm
    subst e
    have d := c.dirty a n l (not_clean_of_turned t)
    have : n.unique = true := unique_iff.mpr ⟨d.1, by rw [c.weak a n l]; exact d.2.2.1⟩
    rw [u] at this
    cases this
  | true =>
    rw [if_pos rfl]
    have la := live_lt l
    rcases takeNext_spec (h := h) (a := a) u (c.shape a n l) with ⟨e, k1⟩ | ⟨f, e, eo, et, k1⟩
    · rw [e]
      show ∃ h' st', (h.takeFirst a n >>= _) = _ ∧ _
      rcases takeFirst_spec (h := h) (a := a) u (c.shape a n l) with ⟨e, eo⟩ | ⟨g, e, nf, eo⟩
      · rw [e]
        refine pop (fun m lm t => ?_)
        rw [← live_inj l lm]
        exact eo k1
      · rw [e]
        obtain ⟨c', ne, z, hw⟩ := c.takeFirst l u hR (fun x => by have := hE x; omega) nf eo
        obtain ⟨b1, b2⟩ := below (R := R) (x := some { n with noFirst := true }) la ok.2.2 (by omega)
        refine ⟨_, _, rfl, c'.eq (fun x => ?_), ⟨fun m lm _ => ?_, trivial, fun y m => fresh_set la (fun e => ?_) (fk y m), trivial, b1⟩, b2, fun _ => ?_⟩
        · simp only [stackH_cons, Frame.handles, count_cons1, List.count_nil]
          omega
        · rcases (live_set la).mp lm with ⟨_, e⟩ | ⟨ne, _⟩
          · injection e with e
            subst e
            show n.others = []
            unfold Node.others
            apply List.drop_eq_nil_of_le
            simp only [List.length_take]
            omega
          · exact absurd rfl ne
        · have := List.count_pos_iff.mpr (e ▸ m)
          omega
        · simp only [stackW_cons, Frame.w]
          omega
    · rw [e]
      obtain ⟨c', ne, z, hw, dn⟩ := c.takeNext l u hR (fun x => by have := hE x; omega) eo et k1
      obtain ⟨b1, b2⟩ := below (R := R) (x := some { n with cnt := n.cnt - 1 }) la ok.2.2 (by omega)
      refine ⟨_, _, rfl, c'.eq (fun x => ?_), stackOk_keeps (fun y m => fresh_set la (fun e => ?_) (fk y m)) ⟨fresh_set la ne (fresh_other c l (by rw [et]; simp)), trivial, b1⟩, b2, fun _ => ?_⟩
      · simp only [stackH_cons, stackH_keep, Frame.handles, count_cons1, List.count_nil]
        omega
      · have := List.count_pos_iff.mpr (e ▸ m)
        omega
      · simp only [stackW_cons, stackW_keep, Frame.w]
        omega

theorem step_ok {h : Heap} {st : List Frame} {H E W R : Nat → Nat} (c : Core h H E W) (ok : StackOk h st)
    (hH : ∀ x, H x = (stackH st).count x + R x) (hE : ∀ x, E x ≤ R x) : StepOk h st E W R := by
  cases st with
  | nil => exact ⟨h, [], rfl, c.eq (fun x => by rw [hH]), trivial, fun x _ => keep_same h x, fun q => absurd rfl q⟩
  | cons f st =>
    cases f with
    | drop a => exact step_drop c ok hH hE
    | each cs => exact step_each c ok hH
    | deep a => exact step_deep c ok hH hE
    | rest a => exact step_rest c ok hH hE
    | main a => exact step_main c ok hH hE
    | loop p a => exact step_loop c ok hH hE
    | next a keep => exact step_next c ok hH hE

end Verif.DropPar
