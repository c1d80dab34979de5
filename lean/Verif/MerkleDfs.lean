import Verif.MerkleProps
/-
The depth-first passes of Merkle updates visit exactly the reachable cells.
-/
set_option linter.unusedVariables false
set_option linter.unusedSimpArgs false
namespace Verif
namespace Merkle
open Boc (Below Clash below_apart)

/-- `x` is a proper descendant of `root`, and every cell between them is entered. -/
inductive Via (go : CCell → Bool) (root : CCell) : CCell → Prop
  | child {r : CCell} (h : r ∈ root.refs) : Via go root r
  | step {c r : CCell} (hc : Via go root c) (hg : go c = true) (h : r ∈ c.refs) : Via go root r

/-- One pass: visited cells are skipped, others are added and entered if `go` says so; a bad cell ends the pass. -/
structure Walk {σ : Type} (step : Nat → CCell → σ → Except Err (σ × Bool)) (vis : σ → List Hash) (add : CCell → σ → σ) (go bad : CCell → Bool)
    (err : Err) : Prop where
  old : ∀ c s, c.reprHash ∈ vis s → step 0 c s = .ok (s, false)
  new : ∀ c s, c.reprHash ∉ vis s → bad c = false → step 0 c s = .ok (add c s, go c)
  bad : ∀ c s, c.reprHash ∉ vis s → bad c = true → step 0 c s = .error err
  vis : ∀ c s, vis (add c s) = c.reprHash :: vis s

/-- What a part of the pass leaves. -/
structure Walked {σ : Type} (vis : σ → List Hash) (go bad : CCell → Bool) (root : CCell) (Q : σ → Prop) (cs : List CCell) (s s' : σ) : Prop where
  inv : Q s'
  mono : ∀ h ∈ vis s, h ∈ vis s'
  here : ∀ c ∈ cs, c.reprHash ∈ vis s'
  closed : ∀ h ∈ vis s', h ∉ vis s → ∃ c, Via go root c ∧ h = c.reprHash ∧ bad c = false ∧ (go c = true → ∀ r ∈ c.refs, r.reprHash ∈ vis s')

theorem Walked.cons {σ : Type} {vis : σ → List Hash} {go bad : CCell → Bool} {root : CCell} {Q : σ → Prop} {c : CCell} {cs : List CCell} {s s1 s2 : σ}
    (h1 : Walked vis go bad root Q [c] s s1) (h2 : Walked vis go bad root Q cs s1 s2) : Walked vis go bad root Q (c :: cs) s s2 where
  inv := h2.inv
  mono := fun h hh => h2.mono h (h1.mono h hh)
  here := by
    intro x hx
    rcases List.mem_cons.mp hx with rfl | hx
    · exact h2.mono _ (h1.here _ (by simp))
    · exact h2.here _ hx
  closed := by
    intro h hh hn
    by_cases h' : h ∈ vis s1
    · obtain ⟨c, g1, g2, g3, g4⟩ := h1.closed h h' hn
      exact ⟨c, g1, g2, g3, fun hg r hr => h2.mono _ (g4 hg r hr)⟩
    · exact h2.closed h hh h'

mutual
theorem dfs_walk {σ : Type} {step : Nat → CCell → σ → Except Err (σ × Bool)} {vis : σ → List Hash} {add : CCell → σ → σ} {go bad : CCell → Bool}
    {err : Err} {root : CCell} {Q : σ → Prop} (w : Walk step vis add go bad err)
    (hQ : ∀ c s, Via go root c → bad c = false → Q s → Q (add c s)) (hm : ∀ c, Via go root c → bump 0 c = .ok 0) :
    ∀ (c : CCell) (s : σ), (∀ r ∈ c.refs, Via go root r) → Q s →
      (∃ s', dfs step 0 c s = .ok s' ∧ Walked vis go bad root Q c.refs s s') ∨
      (dfs step 0 c s = .error err ∧ ∃ x, Via go root x ∧ bad x = true)
  | .mk desc bitLen data refs hashes, s, hv, hq => dfsList_walk w hQ hm refs s hv hq
theorem dfsList_walk {σ : Type} {step : Nat → CCell → σ → Except Err (σ × Bool)} {vis : σ → List Hash} {add : CCell → σ → σ} {go bad : CCell → Bool}
    {err : Err} {root : CCell} {Q : σ → Prop} (w : Walk step vis add go bad err)
    (hQ : ∀ c s, Via go root c → bad c = false → Q s → Q (add c s)) (hm : ∀ c, Via go root c → bump 0 c = .ok 0) :
    ∀ (cs : List CCell) (s : σ), (∀ r ∈ cs, Via go root r) → Q s →
      (∃ s', dfsList step 0 cs s = .ok s' ∧ Walked vis go bad root Q cs s s') ∨
      (dfsList step 0 cs s = .error err ∧ ∃ x, Via go root x ∧ bad x = true)
  | [], s, hv, hq => Or.inl ⟨s, rfl, hq, fun _ h => h, by simp, fun h hh hn => absurd hh hn⟩
  | c :: cs, s, hv, hq => by
    have hvc := hv c (by simp)
    have hsub := fun s1 hr hq1 => dfs_walk (root := root) (Q := Q) w hQ hm c s1 hr hq1
    have hrest := fun s1 hq1 => dfsList_walk (root := root) (Q := Q) w hQ hm cs s1 (fun r hr => hv r (by simp [hr])) hq1
    have hrun : dfsList step 0 (c :: cs) s = (step 0 c s >>= fun r =>
        (if r.2 then (bump 0 c >>= fun md' => dfs step md' c r.1) else .ok r.1) >>= fun s => dfsList step 0 cs s) := rfl
    rw [hrun]
    -- the first cell
    have hfirst : (∃ s1, (step 0 c s >>= fun r => (if r.2 then (bump 0 c >>= fun md' => dfs step md' c r.1) else .ok r.1)) = .ok s1 ∧
        Walked vis go bad root Q [c] s s1) ∨ ((step 0 c s >>= fun r => (if r.2 then (bump 0 c >>= fun md' => dfs step md' c r.1) else .ok r.1)) = .error err ∧
        ∃ x, Via go root x ∧ bad x = true) := by
      by_cases hold : c.reprHash ∈ vis s
      · rw [w.old c s hold]
        exact Or.inl ⟨s, rfl, hq, fun _ h => h, by simpa using hold, fun h hh hn => absurd hh hn⟩
      · cases hb : bad c with
        | true =>
          rw [w.bad c s hold hb]
          exact Or.inr ⟨rfl, c, hvc, hb⟩
        | false =>
          rw [w.new c s hold hb]
          have hq1 := hQ c s hvc hb hq
          have hvis := w.vis c s
          cases hg : go c with
          | false =>
            refine Or.inl ⟨add c s, rfl, hq1, ?_, ?_, ?_⟩
            · intro h hh; rw [hvis]; exact List.mem_cons_of_mem _ hh
            · intro x hx; rw [List.mem_singleton.mp hx, hvis]; exact List.mem_cons_self
            · intro h hh hn
              rw [hvis] at hh
              rcases List.mem_cons.mp hh with rfl | hh
              · exact ⟨c, hvc, rfl, hb, fun h => by rw [hg] at h; cases h⟩
              · exact absurd hh hn
          | true =>
            have e : (bump 0 c >>= fun md' => dfs step md' c (add c s)) = dfs step 0 c (add c s) := by
              rw [hm c hvc]; rfl
            show (∃ s1, (bump 0 c >>= fun md' => dfs step md' c (add c s)) = .ok s1 ∧ _) ∨ ((bump 0 c >>= fun md' => dfs step md' c (add c s)) = .error err ∧ _)
            rw [e]
            rcases hsub (add c s) (fun r hr => .step hvc hg hr) hq1 with ⟨s1, e1, h1⟩ | ⟨e1, h1⟩
            · refine Or.inl ⟨s1, e1, h1.inv, ?_, ?_, ?_⟩
              · intro h hh; exact h1.mono h (by rw [hvis]; exact List.mem_cons_of_mem _ hh)
              · intro x hx; rw [List.mem_singleton.mp hx]; exact h1.mono _ (by rw [hvis]; exact List.mem_cons_self)
              · intro h hh hn
                by_cases hc : h = c.reprHash
                · exact ⟨c, hvc, hc, hb, fun _ r hr => h1.here r hr⟩
                · exact h1.closed h hh (by
                    rw [hvis]; intro hx
                    rcases List.mem_cons.mp hx with hx | hx
                    · exact hc hx
                    · exact hn hx)
            · exact Or.inr ⟨e1, h1⟩
    have hassoc : ∀ (x : Except Err (σ × Bool)) (k : σ × Bool → Except Err σ) (g : σ → Except Err σ), (x >>= fun r => k r >>= g) = ((x >>= k) >>= g) := by
      intro x k g; cases x <;> rfl
    rw [hassoc]
    rcases hfirst with ⟨s1, e1, h1⟩ | ⟨e1, h1⟩
    · rw [e1]
      rcases hrest s1 h1.inv with ⟨s2, e2, h2⟩ | ⟨e2, h2⟩
      · exact Or.inl ⟨s2, e2, h1.cons h2⟩
      · exact Or.inr ⟨e2, h2⟩
    · rw [e1]
      exact Or.inr ⟨rfl, h1⟩
end

/-- A whole pass from a root: it fails exactly when a reachable cell is bad; otherwise all reachable cells are visited. -/
theorem pass_walk {H : Hasher} {σ : Type} {step : Nat → CCell → σ → Except Err (σ × Bool)} {vis : σ → List Hash} {add : CCell → σ → σ} {go bad : CCell → Bool}
    {err : Err} {root : CCell} {Q : σ → Prop} (w : Walk step vis add go bad err) (ha : Boc.Writer.Apart H (Below [root]))
    (hgo : ∀ a b, Below [root] a → Below [root] b → a.tree = b.tree → go a = go b ∧ bad a = bad b)
    (hQ : ∀ c s, Via go root c → bad c = false → Q s → Q (add c s)) (hm : ∀ c, Below [root] c → bump 0 c = .ok 0) {s : σ} (hs : vis s = [root.reprHash]) (hq : Q s) :
    (∃ s', pass step root s = .ok s' ∧ Q s' ∧ (∀ x, Via go root x → x.reprHash ∈ vis s') ∧ root.reprHash ∈ vis s' ∧
      (∀ x, Via go root x → x.reprHash ≠ root.reprHash → bad x = false)) ∨
    (pass step root s = .error err ∧ ∃ x, Via go root x ∧ bad x = true) := by
  have hroot : Below [root] root := ⟨root, by simp, .refl _⟩
  have hbelow : ∀ x, Via go root x → Below [root] x := by
    intro x hx
    induction hx with
    | child h => exact ha.child hroot h
    | step hc hg h ih => exact ha.child ih h
  have hsame : ∀ {a b : CCell}, Below [root] a → Below [root] b → a.reprHash = b.reprHash → ∀ r ∈ a.refs, ∃ r' ∈ b.refs, r'.reprHash = r.reprHash := by
    intro a b h1 h2 h r hr
    have ht := ha.inj h1 h2 h
    have hr' := mem_refs_tree hr
    rw [ht, CCell.tree_refs] at hr'
    obtain ⟨r', hr', e⟩ := List.mem_map.mp hr'
    exact ⟨r', hr', by rw [reprHash_tree (ha.built (ha.child h2 hr')), reprHash_tree (ha.built (ha.child h1 hr)), e]⟩
  have hrun : pass step root s = dfs step 0 root s := by
    unfold pass
    rw [hm root hroot]; rfl
  rw [hrun]
  rcases dfs_walk w hQ (fun c hc => hm c (hbelow c hc)) root s (fun r hr => .child hr) hq with ⟨s', e, h⟩ | h
  · left
    have hall : ∀ x, Via go root x → x.reprHash ∈ vis s' := by
      intro x hx
      induction hx with
      | child hr => exact h.here _ hr
      | @step c r hc hg hr ih =>
        by_cases hcr : c.reprHash ∈ vis s
        · rw [hs, List.mem_singleton] at hcr
          obtain ⟨r', hr', e'⟩ := hsame (hbelow c hc) hroot hcr r hr
          rw [← e']; exact h.here r' hr'
        · obtain ⟨c', g1, g2, g3, g4⟩ := h.closed _ ih hcr
          obtain ⟨r', hr', e'⟩ := hsame (hbelow c hc) (hbelow c' g1) g2 r hr
          have := (hgo c c' (hbelow c hc) (hbelow c' g1) (ha.inj (hbelow c hc) (hbelow c' g1) g2)).1
          rw [← e']; exact g4 (this ▸ hg) r' hr'
    refine ⟨s', e, h.inv, hall, h.mono _ (by rw [hs]; simp), ?_⟩
    intro x hx hne
    obtain ⟨c', g1, g2, g3, g4⟩ := h.closed _ (hall x hx) (by rw [hs, List.mem_singleton]; exact hne)
    rw [(hgo x c' (hbelow x hx) (hbelow c' g1) (ha.inj (hbelow x hx) (hbelow c' g1) g2)).2]
    exact g3
  · exact Or.inr h

end Merkle
end Verif
