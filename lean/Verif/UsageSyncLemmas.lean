import Verif.UsageSync
/-
What several threads see of tracked cells and of the usage tree, under every schedule.
-/
set_option linter.unusedVariables false
namespace Verif
namespace Usage
namespace Sync

/-! ### Lemmas: every step keeps the invariant -/

theorem add_visited (s : State) (h x : Hash) : x ∈ (s.add h).visited ↔ x ∈ s.visited ∨ x = h := by
  unfold State.add
  dsimp only
  split
  · rename_i hm
    exact ⟨Or.inl, fun hx => hx.elim id fun e => e ▸ hm⟩
  · rw [List.mem_cons]; exact Or.comm

theorem Good.retNone {H : Hasher} {s : State} (g : Good H s) {t r i : Nat} (hb : s.busy t = none) (hc : (s.plain.reg r).bind (fun c => c.refs[i]?) = none) :
    Good H (s.retCell t (.load r i) none) := by
  obtain ⟨s1, s2⟩ := step_load g.1.core.alive r i
  refine g.ret rfl rfl ?_ (by rw [s2, hc]; rfl)
  refine Inv.retOn (m := [none]) (l := []) (t := t) g.1 rfl rfl (List.append_nil _).symm rfl rfl rfl (fun x => x) (fun c hc => (nomatch hc)) ?_ ?_ g.1.core.always g.1.core.flags ?_ ?_
  · intro k hk
    rcases List.mem_singleton.mp hk with h1
    cases h1
  · rw [s1, hc]; rfl
  · intro o' pc' h1; rw [hb] at h1; cases h1
  · intro x hx
    simp only [hashOf, hc, Option.map_none, Option.toList_none, ite_self] at hx
    cases hx

theorem Good.retPlain {H : Hasher} {s : State} (g : Good H s) {t : Nat} {o : Op} {out : Out} (hb : s.busy t = none) (ho : ¬ IsDrop o)
    (h1 : (s.plain.step o).1 = s.plain) (h2 : out = (s.plain.step o).2) (h3 : hashOf s.plain o = []) : Good H (s.ret t o out) := by
  refine g.ret rfl rfl ?_ h2
  refine Inv.retOn (m := []) (l := []) (t := t) g.1 rfl rfl (List.append_nil _).symm (List.append_nil _).symm rfl rfl ho (fun c hc => (nomatch hc))
    (fun k hk => (nomatch hk)) (by rw [h1]; exact (List.append_nil _).symm) g.1.core.always g.1.core.flags ?_ ?_
  · intro o' pc' h1; rw [hb] at h1; cases h1
  · intro x hx; rw [h3] at hx; cases hx

theorem Good.call {H : Hasher} {s : State} (g : Good H s) {t : Nat} (hb : s.busy t = none) {o : Op} (ho : ∀ c, o = .track c → Built H c) : Good H (s.call t o) := by
  have same : ∀ {o : Op} (o' : Op) (pc' : Pc), s.busy t = some (o', pc') → o' = o ∧ ∀ i id, pc' ≠ .closure i id := by
    intro o o' pc' h1; rw [hb] at h1; cases h1
  have late : ∀ x, LateBy s t x → x ∈ s.visited := by
    rintro x ⟨o', i, id, k, d, h1, _⟩; rw [hb] at h1; cases h1
  have go : ∀ (o : Op) (pc : Pc), PcOk (s.go t o pc) t o pc → Good H (s.go t o pc) := fun o pc hp =>
    g.stay rfl rfl (Inv.goOn (v := s.visited) g.1 (fun x hx => hx) (fun x hx => Or.inl hx) hp same late)
  cases o with
  | track c =>
    unfold State.call
    dsimp only
    cases hl : s.onLoad with
    | true => rw [if_pos rfl]; exact go _ _ ⟨rfl, hl⟩
    | false => rw [if_neg (by decide)]; exact go _ _ ⟨rfl, fun h1 => by rw [show (s.go t (.track c) (.wrap c)).onLoad = s.onLoad from rfl, hl] at h1; cases h1⟩
  | load r i =>
    unfold State.call
    dsimp only
    cases hr : s.reg r with
    | none => exact g.retNone hb (by rw [g.1.core.noReg hr]; rfl)
    | some id =>
      dsimp only
      by_cases hi : i < 4
      · rw [if_pos hi]; exact go _ _ ⟨hi, r, rfl, hr⟩
      · rw [if_neg hi]
        obtain ⟨c, h1, h2, _, h4⟩ := g.1.core.cellOf hr
        refine g.retNone hb ?_
        rw [h2]
        have := (g.1.core.built c h4).facts.refs_le
        exact List.getElem?_eq_none (by omega)
  | data r =>
    unfold State.call
    dsimp only
    cases hr : s.reg r with
    | none =>
      dsimp only
      have hn := g.1.core.noReg hr
      refine g.retPlain hb (fun x => x) ?_ ?_ ?_
      · simp only [Plain.step, hn, Plain.meet]
      · simp only [Plain.step, hn, Option.map_none]
      · simp only [hashOf, hn, Option.map_none, Option.toList_none, ite_self]
    | some id => exact go _ _ ⟨r, rfl, hr⟩
  | info r l =>
    refine g.retPlain hb (fun x => x) rfl ?_ rfl
    rw [← g.1.core.anyReg r]; rfl
  | untrack r =>
    refine g.retPlain hb (fun x => x) rfl ?_ rfl
    rw [← g.1.core.anyReg r]; rfl
  | drop => exact g

theorem Good.exec {H : Hasher} {s : State} (g : Good H s) {t : Nat} {o : Op} {pc : Pc} (hb : s.busy t = some (o, pc)) (ho : ∀ c, o = .track c → Built H c) : Good H (s.exec t o pc) := by
  have hp := g.1.pcs t o pc hb
  have hbd := hp.bound g.1.core
  have hcore := g.1.core
  cases pc with
  | track c =>
    obtain ⟨rfl, hl⟩ := hp
    refine g.stay rfl rfl (Inv.goOn (v := (s.add c.reprHash).visited) g.1 (fun x hx => (add_visited ..).mpr (Or.inl hx)) ?_ ⟨rfl, fun _ => (add_visited ..).mpr (Or.inr rfl)⟩ ?_ ?_)
    · intro x hx
      rcases (add_visited ..).mp hx with h1 | rfl
      · exact Or.inl h1
      · refine Or.inr ?_
        simp only [hashOf]
        rw [if_pos (hcore.mode.trans hl)]
        exact List.mem_singleton.mpr rfl
    · intro o' pc' h1; rw [hb] at h1; cases h1; exact ⟨rfl, fun i id h => (nomatch h)⟩
    · rintro x ⟨o', i, id, k, d, h1, _⟩; rw [hb] at h1; cases h1
  | wrap c =>
    obtain ⟨rfl, hl⟩ := hp
    obtain ⟨s1, s2⟩ := step_track hcore.alive c
    refine g.ret rfl rfl ?_ s2.symm
    refine Inv.retOn (m := [some s.cells.length]) (l := [c]) (t := t) g.1 rfl rfl rfl rfl rfl rfl hbd.1 ?_ ?_ ?_ hcore.always ?_ ?_ ?_
    · intro x hx; rw [List.mem_singleton.mp hx]; exact ho c rfl
    · intro k hk
      have hk := List.mem_singleton.mp hk
      injection hk with hk
      show k < (s.cells ++ [c]).length
      rw [List.length_append, List.length_singleton]; omega
    · rw [s1]
      show _ = s.plain.regs ++ [(s.cells ++ [c])[s.cells.length]?]
      rw [List.getElem?_concat_length]
    · intro h1 id h2
      obtain ⟨d, h3, h4⟩ := hcore.flags h1 id h2
      refine ⟨d, ?_, h4⟩
      show (s.cells ++ [c])[id]? = some d
      rw [List.getElem?_append_left (List.getElem?_eq_some_iff.mp h3).1]; exact h3
    · intro o' pc' h1; rw [hb] at h1; cases h1; exact ⟨rfl, fun i id h => (nomatch h), fun i id h => (nomatch h)⟩
    · intro x hx
      simp only [hashOf] at hx
      split at hx
      · rename_i h1
        rw [List.mem_singleton.mp hx]
        exact Or.inl (hl (hcore.mode.symm.trans h1))
      · cases hx
  | once i id =>
    obtain ⟨hi, r, rfl, hr⟩ := hp
    unfold State.exec
    dsimp only
    cases hs : s.slot id i with
    | running u => exact g
    | done k =>
      refine g.stay rfl rfl (Inv.goOn (v := s.visited) g.1 (fun x hx => hx) (fun x hx => Or.inl hx) ⟨⟨hi, r, rfl, hr⟩, k, hs, fun h => nomatch h⟩ ?_ ?_)
      · intro o' pc' h1; rw [hb] at h1; cases h1; exact ⟨rfl, fun i id h => (nomatch h)⟩
      · rintro x ⟨o', i, id, k, d, h1, _⟩; rw [hb] at h1; cases h1
    | fresh =>
      dsimp only
      have hslot : ∀ j k, (s.setSlot id i (.running t)).slot j k = if j = id ∧ k = i then .running t else s.slot j k := fun _ _ => rfl
      have hbt : ((s.setSlot id i (.running t)).go t (.load r i) (.closure i id)).busy t = some (.load r i, .closure i id) := if_pos rfl
      have hold : ∀ j k x, x ≠ .fresh → s.slot j k = x → ((s.setSlot id i (.running t)).go t (.load r i) (.closure i id)).slot j k = x := by
        intro j k x hx h1
        show (if j = id ∧ k = i then _ else _) = x
        rw [if_neg, h1]
        rintro ⟨rfl, rfl⟩
        exact hx (h1.symm.trans hs)
      have hnew : ∀ j k x, x ≠ .running t → ((s.setSlot id i (.running t)).go t (.load r i) (.closure i id)).slot j k = x → s.slot j k = x := by
        intro j k x hx h1
        have h1 : (if j = id ∧ k = i then Slot.running t else s.slot j k) = x := h1
        split at h1
        · exact absurd h1.symm hx
        · exact h1
      refine g.stay rfl rfl (Inv.next (t := t) g.1 ⟨rfl, fun x hx => hx, ⟨[], (List.append_nil _).symm⟩, ⟨[], (List.append_nil _).symm⟩,
        fun j k x hd => hold _ _ _ (fun h => nomatch h) hd, fun j k u _ hd => hold _ _ _ (fun h => nomatch h) hd, fun u hu => if_neg hu⟩
        ⟨hcore.mode, hcore.alive, hcore.built, hcore.regs, hcore.valid, fun j k x hx => hcore.slots j k x (hnew _ _ _ (fun h => nomatch h) hx), hcore.always, hcore.flags⟩
        ?_ ?_ ?_ ?_ (Or.inl rfl) (fun x hx => Or.inl hx) (fun x hx => Or.inl hx) ?_)
      · intro o' pc' h1
        rw [hbt] at h1
        injection h1 with h1
        injection h1 with h1 h2
        subst h1; subst h2
        exact ⟨⟨hi, r, rfl, hr⟩, if_pos ⟨rfl, rfl⟩⟩
      · intro j k u hu
        by_cases hc : j = id ∧ k = i
        · obtain ⟨rfl, rfl⟩ := hc
          have hu : (if j = j ∧ k = k then Slot.running t else s.slot j k) = .running u := hu
          rw [if_pos ⟨rfl, rfl⟩] at hu
          injection hu with hu
          exact Or.inr ⟨hu.symm, _, hbt⟩
        · have hu : (if j = id ∧ k = i then Slot.running t else s.slot j k) = .running u := hu
          rw [if_neg hc] at hu
          refine Or.inl ⟨fun hut => ?_, hu⟩
          obtain ⟨o', h1⟩ := g.1.runs j k u hu
          rw [hut, hb] at h1; cases h1
      · rintro x ⟨o', i, id, k, d, h1, _⟩; rw [hb] at h1; cases h1
      · intro _ j k n d h1 _
        exact Or.inl (hnew _ _ _ (fun h => nomatch h) h1)
      · intro o' pc' h1 x hx
        rw [hb] at h1
        injection h1 with h1
        injection h1 with h1 h2
        subst h1
        exact Or.inr ⟨_, _, hbt, hx⟩
  | closure i id =>
    obtain ⟨⟨hi, r, rfl, hr⟩, hs⟩ := hp
    obtain ⟨c, hc, _, _, hmem⟩ := hcore.cellOf hr
    unfold State.exec
    dsimp only
    rw [hc]
    dsimp only
    -- the two outcomes together: `l` is the new usage cell, if any
    have main : ∀ (l : List CCell) (k : Option Nat) (ins : Bool), (∀ d ∈ l, Built H d) → c.refs[i]? = k.bind ((s.cells ++ l)[·]?) →
        (∀ j, k = some j → j < (s.cells ++ l).length) → (ins = true → s.onLoad = true ∧ k ≠ none) → (s.onLoad = true → k ≠ none → ins = true) →
        Good H (({ s with cells := s.cells ++ l }.setSlot id i (.done k)).go t (.load r i) (.read i id ins)) := by
      intro l k ins hl hk hk2 hins hins2
      generalize hs' : ({ s with cells := s.cells ++ l }.setSlot id i (.done k)).go t (.load r i) (.read i id ins) = s'
      have e1 : s'.onLoad = s.onLoad := by rw [← hs']; rfl
      have e2 : s'.visited = s.visited := by rw [← hs']; rfl
      have e3 : s'.cells = s.cells ++ l := by rw [← hs']; rfl
      have e4 : s'.regs = s.regs := by rw [← hs']; rfl
      have e5 : ∀ a b, s'.slot a b = if a = id ∧ b = i then .done k else s.slot a b := by intro a b; rw [← hs']; rfl
      have e6 : s'.busy = fun u => if u = t then some (.load r i, .read i id ins) else s.busy u := by rw [← hs']; rfl
      have e7 : s'.flag = s.flag := by rw [← hs']; rfl
      have e8 : s'.log = s.log := by rw [← hs']; rfl
      have hbt : s'.busy t = some (.load r i, .read i id ins) := by rw [e6]; exact if_pos rfl
      have hold : ∀ a b x, x ≠ .running t → s.slot a b = x → s'.slot a b = x := by
        intro a b x hx h1
        rw [e5, if_neg, h1]
        rintro ⟨rfl, rfl⟩
        exact hx (h1.symm.trans hs)
      have hget : ∀ j, j < s.cells.length → s'.cells[j]? = s.cells[j]? := fun j hj => by rw [e3, List.getElem?_append_left hj]
      have hlen : s.cells.length ≤ s'.cells.length := by rw [e3, List.length_append]; omega
      have e : Ext t s s' := ⟨e1, fun x hx => by rw [e2]; exact hx, ⟨l, e3⟩, ⟨[], by rw [e4, List.append_nil]⟩,
        fun a b x hd => hold _ _ _ (fun h => nomatch h) hd, fun a b u hu hd => hold _ _ _ (fun h => hu (by injection h)) hd, fun u hu => by rw [e6]; exact if_neg hu⟩
      refine g.stay e8 e1 (Inv.next (t := t) g.1 e ⟨hcore.mode.trans e1.symm, hcore.alive, ?_, ?_, ?_, ?_, ?_, ?_⟩ ?_ ?_ ?_ ?_ (Or.inl rfl) (fun x hx => Or.inl hx) ?_ ?_)
      · intro d hd
        rw [e3] at hd
        rcases List.mem_append.mp hd with h1 | h1
        · exact hcore.built d h1
        · exact hl d h1
      · rw [hcore.regs, e4]
        refine List.map_congr_left fun x hx => ?_
        cases x with
        | none => rfl
        | some x => exact (hget x (hcore.valid x hx)).symm
      · intro x hx
        rw [e4] at hx
        have := hcore.valid x hx; omega
      · intro a b x hx
        rw [e5] at hx
        by_cases hab : a = id ∧ b = i
        · obtain ⟨rfl, rfl⟩ := hab
          rw [if_pos ⟨rfl, rfl⟩] at hx
          injection hx with hx
          subst hx
          refine ⟨c, e.cell hc, ?_, ?_⟩
          · rw [e3]; exact hk
          · rw [e3]; exact hk2
        · rw [if_neg hab] at hx
          obtain ⟨d, g1, g2, g3⟩ := hcore.slots a b x hx
          refine ⟨d, e.cell g1, ?_, fun j hj => by have := g3 j hj; omega⟩
          rw [g2]
          cases x with
          | none => rfl
          | some x => exact (hget x (g3 x rfl)).symm
      · intro h1; rw [e7]; exact hcore.always (e1.symm.trans h1)
      · intro h1 a h2
        rw [e7] at h2
        obtain ⟨d, h3, h4⟩ := hcore.flags (e1.symm.trans h1) a h2
        exact ⟨d, e.cell h3, by rw [e2]; exact h4⟩
      · intro o' pc' h1
        rw [hbt] at h1
        injection h1 with h1
        injection h1 with h1 h2
        subst h1; subst h2
        exact ⟨⟨hi, r, rfl, e.reg hr⟩, k, by rw [e5, if_pos ⟨rfl, rfl⟩], fun h1 => ⟨e1.trans (hins h1).1, (hins h1).2⟩⟩
      · intro a b u hu
        rw [e5] at hu
        by_cases hab : a = id ∧ b = i
        · rw [if_pos hab] at hu; cases hu
        · rw [if_neg hab] at hu
          refine Or.inl ⟨?_, hu⟩
          rintro rfl
          obtain ⟨o', h1⟩ := g.1.runs a b u hu
          rw [hb] at h1
          injection h1 with h1
          injection h1 with h1 h2
          injection h2 with h2 h3
          exact hab ⟨h3.symm, h2.symm⟩
      · rintro x ⟨o', i, id, k, d, h1, _⟩; rw [hb] at h1; cases h1
      · intro hl a b n d h1 h2
        rw [e5] at h1
        by_cases hab : a = id ∧ b = i
        · obtain ⟨rfl, rfl⟩ := hab
          rw [if_pos ⟨rfl, rfl⟩] at h1
          injection h1 with h1
          have hi' : ins = true := hins2 hl (by rw [h1]; exact fun h => nomatch h)
          exact Or.inr ⟨_, b, a, n, d, by rw [hbt, hi'], by rw [e5, if_pos ⟨rfl, rfl⟩, h1], h2, rfl⟩
        · rw [if_neg hab] at h1; exact Or.inl h1
      · intro x hx; rw [e2] at hx; exact Or.inl hx
      · intro o' pc' h1 x hx
        rw [hb] at h1
        injection h1 with h1
        injection h1 with h1 h2
        subst h1
        exact Or.inr ⟨_, _, hbt, hx⟩
    cases hd : c.refs[i]? with
    | none =>
      have := main [] none false (fun d h => nomatch h) hd (fun j h => nomatch h) (fun h => nomatch h) (fun _ h => absurd rfl h)
      rw [List.append_nil] at this
      exact this
    | some d =>
      refine main [d] (some s.cells.length) s.onLoad ?_ ?_ ?_ (fun h => ⟨h, fun h => nomatch h⟩) (fun h _ => h)
      · intro x hx
        rw [List.mem_singleton.mp hx]
        exact (hcore.built c hmem).of_ref (List.mem_of_getElem? hd)
      · rw [hd]
        show _ = (s.cells ++ [d])[s.cells.length]?
        rw [List.getElem?_concat_length]
      · intro j hj
        injection hj with hj
        rw [List.length_append, List.length_singleton]; omega
  | read i id ins =>
    obtain ⟨⟨hi, r, rfl, hr⟩, k, hs, hins⟩ := hp
    obtain ⟨c, hc, hpr, _, hmem⟩ := hcore.cellOf hr
    obtain ⟨c', g1, g2, g3⟩ := hcore.slots id i k hs
    rw [hc] at g1
    injection g1 with g1
    subst g1
    have hchild : (s.plain.reg r).bind (fun c => c.refs[i]?) = k.bind (s.cells[·]?) := by rw [hpr]; exact g2
    unfold State.exec
    dsimp only
    rw [hs]
    dsimp only
    cases ins with
    | true =>
      obtain ⟨hl, hk⟩ := hins rfl
      rw [if_pos rfl]
      cases k with
      | none => exact absurd rfl hk
      | some k =>
        have hlt := g3 k rfl
        have hd : s.cells[k]? = some s.cells[k] := List.getElem?_eq_getElem hlt
        show Good H (match s.cells[k]? with | some d => _ | none => _)
        rw [hd]
        dsimp only
        refine g.stay rfl rfl (Inv.goOn (v := (s.add (s.cells[k]'hlt).reprHash).visited) g.1 (fun x hx => (add_visited ..).mpr (Or.inl hx)) ?_
          ⟨⟨hi, r, rfl, hr⟩, some k, hs, fun h => nomatch h⟩ ?_ ?_)
        · intro x hx
          rcases (add_visited ..).mp hx with h1 | rfl
          · exact Or.inl h1
          · refine Or.inr ?_
            simp only [hashOf, hchild]
            rw [if_pos (hcore.mode.trans hl)]
            show _ ∈ ((s.cells[k]?).map CCell.reprHash).toList
            rw [hd]
            exact List.mem_singleton.mpr rfl
        · intro o' pc' h1; rw [hb] at h1; cases h1; exact ⟨rfl, fun i id h => (nomatch h)⟩
        · rintro x ⟨o', i', id', k', d, h1, h2, h3, rfl⟩
          rw [hb] at h1
          injection h1 with h1
          injection h1 with h1 h4
          injection h4 with h4 h5
          subst h4; subst h5
          rw [hs] at h2
          injection h2 with h2
          injection h2 with h2
          subst h2
          rw [hd] at h3
          injection h3 with h3
          rw [← h3]
          exact (add_visited ..).mpr (Or.inr rfl)
    | false =>
      rw [if_neg (by decide)]
      obtain ⟨s1, s2⟩ := step_load hcore.alive r i
      have hsome : k.isSome = (k.bind (s.cells[·]?)).isSome := by
        cases k with
        | none => rfl
        | some k =>
          show true = (s.cells[k]?).isSome
          rw [List.getElem?_eq_getElem (g3 k rfl)]; rfl
      refine g.ret rfl rfl ?_ (by rw [s2, hchild, hsome])
      refine Inv.retOn (m := [k]) (l := []) (t := t) g.1 rfl rfl (List.append_nil _).symm rfl rfl rfl hbd.1 (fun x hx => (nomatch hx)) ?_ ?_ hcore.always hcore.flags ?_ ?_
      · intro j hj
        exact g3 j (List.mem_singleton.mp hj).symm
      · rw [s1, hchild]; rfl
      · intro o' pc' h1; rw [hb] at h1; cases h1; exact ⟨rfl, fun i id h => (nomatch h), fun i id h => (nomatch h)⟩
      · intro x hx
        simp only [hashOf, hchild] at hx
        split at hx
        · rename_i h1
          cases k with
          | none => cases hx
          | some k =>
            have hlt := g3 k rfl
            have hd : s.cells[k]? = some s.cells[k] := List.getElem?_eq_getElem hlt
            have hx : x ∈ ((s.cells[k]?).map CCell.reprHash).toList := hx
            rw [hd] at hx
            rw [List.mem_singleton.mp hx]
            exact g.1.made (hcore.mode.symm.trans h1) id i k _ hs hd
        · cases hx
  | flag id =>
    obtain ⟨r, rfl, hr⟩ := hp
    obtain ⟨c, hc, hpr, _, hmem⟩ := hcore.cellOf hr
    obtain ⟨s1, s2⟩ := step_data hcore.alive r
    unfold State.exec
    dsimp only
    by_cases hf : s.flag id = true
    · rw [if_pos hf]
      refine g.ret rfl rfl ?_ (by rw [s2, hpr, hc])
      refine Inv.retOn (m := []) (l := []) (t := t) g.1 rfl rfl (List.append_nil _).symm (List.append_nil _).symm rfl rfl hbd.1 (fun x hx => (nomatch hx))
        (fun x hx => (nomatch hx)) (by rw [s1]; exact (List.append_nil _).symm) hcore.always hcore.flags ?_ ?_
      · intro o' pc' h1; rw [hb] at h1; cases h1; exact ⟨rfl, fun i id h => (nomatch h), fun i id h => (nomatch h)⟩
      · intro x hx
        simp only [hashOf, hpr] at hx
        split at hx
        · cases hx
        · rename_i h1
          have hx : x ∈ [c.reprHash] := hx
          rw [List.mem_singleton.mp hx]
          obtain ⟨d, h3, h4⟩ := hcore.flags (by rw [← hcore.mode]; exact Bool.not_eq_true _ ▸ h1) id hf
          rw [hc] at h3
          injection h3 with h3
          rw [h3]
          exact Or.inl h4
    · rw [if_neg hf]
      have hl : s.onLoad = false := by
        cases e : s.onLoad with
        | false => rfl
        | true => exact absurd (hcore.always e id) hf
      refine g.stay rfl rfl (Inv.goOn (v := s.visited) g.1 (fun x hx => hx) (fun x hx => Or.inl hx) ⟨⟨r, rfl, hr⟩, hl⟩ ?_ ?_)
      · intro o' pc' h1; rw [hb] at h1; cases h1; exact ⟨rfl, fun i id h => (nomatch h)⟩
      · rintro x ⟨o', i, id, k, d, h1, _⟩; rw [hb] at h1; cases h1
  | insert id =>
    obtain ⟨⟨r, rfl, hr⟩, hl⟩ := hp
    obtain ⟨c, hc, hpr, _, hmem⟩ := hcore.cellOf hr
    unfold State.exec
    dsimp only
    rw [hc]
    dsimp only
    refine g.stay rfl rfl (Inv.goOn (v := (s.add c.reprHash).visited) g.1 (fun x hx => (add_visited ..).mpr (Or.inl hx)) ?_ ⟨⟨r, rfl, hr⟩, hl, ?_⟩ ?_ ?_)
    · intro x hx
      rcases (add_visited ..).mp hx with h1 | rfl
      · exact Or.inl h1
      · refine Or.inr ?_
        simp only [hashOf, hpr]
        rw [if_neg (by rw [hcore.mode, hl]; decide)]
        exact List.mem_singleton.mpr rfl
    · intro d hd
      have hd : s.cells[id]? = some d := hd
      rw [hc] at hd
      injection hd with hd
      rw [← hd]
      exact (add_visited ..).mpr (Or.inr rfl)
    · intro o' pc' h1; rw [hb] at h1; cases h1; exact ⟨rfl, fun i id h => (nomatch h)⟩
    · rintro x ⟨o', i, id, k, d, h1, _⟩; rw [hb] at h1; cases h1
  | set id =>
    obtain ⟨⟨r, rfl, hr⟩, hl, hv⟩ := hp
    obtain ⟨c, hc, hpr, _, hmem⟩ := hcore.cellOf hr
    obtain ⟨s1, s2⟩ := step_data hcore.alive r
    have hvis := hv c hc
    refine g.ret rfl rfl ?_ (by rw [s2, hpr]; show Out.bytes ((s.cells[id]?).map _) = _; rw [hc])
    refine Inv.retOn (m := []) (l := []) (t := t) g.1 rfl rfl (List.append_nil _).symm (List.append_nil _).symm rfl rfl hbd.1 (fun x hx => (nomatch hx))
      (fun x hx => (nomatch hx)) (by rw [s1]; exact (List.append_nil _).symm) ?_ ?_ ?_ ?_
    · intro h1; rw [hl] at h1; cases h1
    · intro _ j hj
      have hj : (if j = id then true else s.flag j) = true := hj
      by_cases hji : j = id
      · subst hji; exact ⟨c, hc, hvis⟩
      · rw [if_neg hji] at hj; exact hcore.flags hl j hj
    · intro o' pc' h1; rw [hb] at h1; cases h1; exact ⟨rfl, fun i id h => (nomatch h), fun i id h => (nomatch h)⟩
    · intro x hx
      simp only [hashOf, hpr] at hx
      split at hx
      · cases hx
      · have hx : x ∈ [c.reprHash] := hx
        rw [List.mem_singleton.mp hx]
        exact Or.inl hvis

end Sync
end Usage
end Verif
