import Verif.DictModSeek
import Verif.DictBuildProps
import Verif.DictSplitProps
/-
C28: bulk modification of dictionaries.
-/
set_option linter.unusedVariables false
set_option linter.unusedSimpArgs false
namespace Verif

/-! ### Specification -/

/-- The map after the modifications: of several modifications of a key the first counts, `none` removes the key. -/
def DMap.modified (m : DMap) (es : List (Bits × Option Sl)) : DMap := fun k => (modOf es k).getD (m k)

/-- Modifications in ascending order of their keys; equal keys are allowed. -/
def Ordered (es : List (Bits × Option Sl)) : Prop := es.Pairwise (fun a b => lexBits a.1 b.1 ≠ .gt)

/-- Modifications in strictly ascending order of their keys. -/
def StrictlyOrdered (es : List (Bits × Option Sl)) : Prop := es.Pairwise (fun a b => lexBits a.1 b.1 = .lt)

/-- One modification by a single operation. -/
def modOne (acc : Cell → Bool) (n : Nat) (d : Option Cell) : Bits × Option Sl → Except Err (Option Cell)
  | (k, some v) => match dictInsert acc d k n v .set with
    | (.ok _, d') => .ok d'
    | (.error e, _) => .error e
  | (k, none) => match dictRemoveOwned acc d k n false with
    | (.ok _, d') => .ok d'
    | (.error e, _) => .error e

/-- Modifications one after the other. -/
def modAll (acc : Cell → Bool) (n : Nat) : List (Bits × Option Sl) → Option Cell → Except Err (Option Cell)
  | [], d => .ok d
  | e :: es, d => modOne acc n d e >>= modAll acc n es

/-! ### Lemmas -/

theorem StrictlyOrdered.ordered {es : List (Bits × Option Sl)} (h : StrictlyOrdered es) : Ordered es :=
  List.Pairwise.imp (fun h => by rw [h]; decide) h

theorem StrictlyOrdered.tail {e : Bits × Option Sl} {es : List (Bits × Option Sl)} (h : StrictlyOrdered (e :: es)) : modOf es e.1 = none ∧ StrictlyOrdered es := by
  have h := List.pairwise_cons.mp h
  refine ⟨modOf_none fun e' he' heq => ?_, h.2⟩
  have := h.1 e' he'
  rw [heq, lexBits_refl] at this
  cases this

theorem modGo_first (cmp : Comparator) (acc : Cell → Bool) (root : Cell) (K : Bits) (v : Option Sl) (es : List (Bits × Option Sl)) :
    modGo cmp acc root lexBits ((K, v) :: es) none [] [] = ((IItem.load [] K.length root >>= fun it => doSeek cmp acc v.isNone (K.length + 1) [it] K []) >>= fun r =>
      modApply cmp acc K v r >>= fun x => modGo cmp acc root lexBits es (some K) x.1 x.2) := by
  have h : modGo cmp acc root lexBits ((K, v) :: es) none [] [] = (IItem.load [] K.length root >>= fun it => doSeek cmp acc v.isNone (K.length + 1) [it] K [] >>= fun r =>
      modApply cmp acc K v r >>= fun x => modGo cmp acc root lexBits es (some K) x.1 x.2) := rfl
  rw [h]
  cases IItem.load [] K.length root <;> rfl

theorem modFull_spec (cmp : Comparator) (acc : Cell → Bool) {n : Nat} (hn : n ≤ 1023) {root : Cell} {m : DMap} (hd : RepresentsX cmp acc n (some root) m)
    {es : List (Bits × Option Sl)} (hes : es ≠ []) (hlen : ∀ e ∈ es, e.1.length = n) (hord : Ordered es) :
    match modFull cmp acc n lexBits root es with
    | .ok (some d) => RepresentsX cmp acc n d (m.modified es)
    | .ok none => False
    | .error _ => ∀ d, ¬ RepresentsX cmp acc n d (m.modified es) := by
  obtain ⟨t, hsz, hcan, hgood, rfl, hm⟩ := hd
  cases es with
  | nil => exact absurd rfl hes
  | cons e es =>
    obtain ⟨K, v⟩ := e
    have hK : K.length = n := hlen (K, v) List.mem_cons_self
    have hlen' : ∀ e ∈ es, e.1.length = n := fun e he => hlen e (List.mem_cons_of_mem _ he)
    have hpw := List.pairwise_cons.mp hord
    have hpart : Piece.PartOf cmp acc n [] t := ⟨by simp, by simpa using hsz, by simpa using hcan, hgood⟩
    let f0 : Frame := ⟨[], t, -1, false⟩
    have hw : Walk cmp acc n [] [f0] := ⟨fun y hy => (by cases hy), List.Pairwise.nil, fun y hy => (by cases hy), .root rfl hpart⟩
    obtain ⟨G1, f1, rest1, r, c1, w1, w2, w3, w4, w5, w6, w7, t1⟩ := doSeek_spec cmp acc hn hK v.isNone (K.length + 1) f0 [] [] K (by omega) rfl hw (Or.inl rfl)
      (Or.inl rfl) (fun y hy => (by cases hy)) (fun y hy => (by cases hy))
    obtain ⟨G2, f2, c2, a2, t2⟩ := modApply_spec cmp acc hn hK (⟨w1, w2, w3, w4, w5, w6, w7⟩ : Sought cmp acc n ([] ++ G1) f1 rest1 K v.isNone r)
    obtain ⟨G3, f3, rest3, L3, c3, a3, t3⟩ := modGo_spec cmp acc hn t.cell es K _ f2 rest1 a2 hK hlen' hpw.1 hpw.2
    obtain ⟨G4, c4, o4, p4, cl4, l4⟩ := seekEnd_spec cmp acc hn rest3 f3 _ false a3.walk a3.cov a3.closed
    have hload : IItem.load [] K.length t.cell = .ok (f0.item n) := by
      have := load_item cmp acc hn hpart
      rw [hK]
      simpa using this
    have hgo : modGo cmp acc t.cell lexBits ((K, v) :: es) none [] [] =
        (addPieces cmp acc n (G1 ++ G2 ++ G3) [] >>= fun st => .ok (some L3, (f3 :: rest3).map (Frame.item n), st)) := by
      have hrun : modGo cmp acc t.cell lexBits ((K, v) :: es) none [] [] = ((IItem.load [] K.length t.cell >>= fun it =>
          doSeek cmp acc v.isNone (K.length + 1) [it] K []) >>= fun r => modApply cmp acc K v r >>= fun x => modGo cmp acc t.cell lexBits es (some K) x.1 x.2) :=
        modGo_first cmp acc t.cell K v es
      rw [hrun, hload]
      show (doSeek cmp acc v.isNone (K.length + 1) ([f0].map (Frame.item n)) K [] >>= _) = _
      rw [c1 [], addPieces_append, addPieces_append]
      cases addPieces cmp acc n G1 [] with
      | error e => rfl
      | ok st1 =>
        show (modApply cmp acc K v (r, (f1 :: rest1).map (Frame.item n), st1) >>= _) = ((addPieces cmp acc n G2 st1 >>= addPieces cmp acc n G3) >>= _)
        rw [c2 st1]
        cases addPieces cmp acc n G2 st1 with
        | error e => rfl
        | ok st2 => exact c3 st2
    have hfull : modFull cmp acc n lexBits t.cell ((K, v) :: es) =
        ((addPieces cmp acc n ([] ++ G1 ++ G2 ++ G3 ++ G4) [] >>= finalize cmp acc n) >>= fun d => .ok (some d)) := by
      have hrun : modFull cmp acc n lexBits t.cell ((K, v) :: es) = (modGo cmp acc t.cell lexBits ((K, v) :: es) none [] [] >>= fun x =>
          match x.1 with
          | none => .ok none
          | some _ => seekEnd cmp acc x.2.1 false x.2.2 >>= fun st => finalize cmp acc n st >>= fun d => .ok (some d)) := rfl
      rw [hrun, hgo, List.nil_append, addPieces_append cmp acc n (G1 ++ G2 ++ G3) G4]
      cases addPieces cmp acc n (G1 ++ G2 ++ G3) [] with
      | error e => rfl
      | ok st =>
        show (seekEnd cmp acc ((f3 :: rest3).map (Frame.item n)) false st >>= _) = ((addPieces cmp acc n G4 st >>= _) >>= _)
        rw [c4 st]
        cases addPieces cmp acc n G4 st <;> rfl
    have hbuild := pieces_build cmp acc hn _ o4 p4 (fun x hx hr => (cl4 x hx hr).resolve_right id)
    have hlook : ∀ k, k.length = n → piecesLook ([] ++ G1 ++ G2 ++ G3 ++ G4) k = m.modified ((K, v) :: es) k := by
      intro k hk
      rw [l4 k, t3 k hk, t2 k hk, t1 k]
      have h0 : total [] [f0] k = m k := by
        rw [hm k hk]
        show (none <|> pendLook (f0.pend ++ []) k) = _
        rw [List.append_nil, pendLook_new]
        show lk [] t k = _
        unfold lk
        rw [show stripPrefix [] k = some k by cases k <;> rfl]
      rw [h0]
      show _ = Option.getD (if k = K then some v else modOf es k) (m k)
      by_cases hkK : k = K
      · rw [if_pos hkK, if_pos hkK, if_pos hkK]; rfl
      · rw [if_neg hkK, if_neg hkK, if_neg hkK]
    rw [hfull]
    cases hx : (addPieces cmp acc n ([] ++ G1 ++ G2 ++ G3 ++ G4) [] >>= finalize cmp acc n) with
    | error e =>
      rw [hx] at hbuild
      exact fun d hd => hbuild d (representsX_congr hd hlook)
    | ok d =>
      rw [hx] at hbuild
      exact representsX_congr hbuild (fun k hk => (hlook k hk).symm)

theorem modOne_represents (acc : Cell → Bool) {n : Nat} (hn : n ≤ 1023) {d d' : Option Cell} {m : DMap} {e : Bits × Option Sl} (hk : e.1.length = n)
    (hd : RepresentsC acc n d m) (h : modOne acc n d e = .ok d') : RepresentsC acc n d' (m.put e.1 e.2) := by
  obtain ⟨key, v⟩ := e
  cases v with
  | some v =>
    rcases C22_step acc hn hd (.insert .set key v) with ⟨_, h1, h2⟩ | ⟨_, ⟨e, h1⟩, _⟩
    · simp only [DOp.run] at h1 h2
      rw [modOne] at h
      generalize dictInsert acc d key n v .set = r at h1 h2 h
      obtain ⟨r1, d1⟩ := r
      cases r1 with
      | error e => cases h1
      | ok b =>
        injection h with h
        subst h
        exact h2
    · simp only [DOp.run] at h1
      rw [modOne] at h
      generalize dictInsert acc d key n v .set = r at h1 h
      obtain ⟨r1, d1⟩ := r
      cases r1 with
      | error e => cases h
      | ok b => cases h1
  | none =>
    rcases C22_step acc hn hd (.remove key) with ⟨_, h1, h2⟩ | ⟨_, ⟨e, h1⟩, _⟩
    · simp only [DOp.run] at h1 h2
      rw [modOne] at h
      generalize dictRemoveOwned acc d key n false = r at h1 h2 h
      obtain ⟨r1, d1⟩ := r
      cases r1 with
      | error e => cases h1
      | ok b =>
        injection h with h
        subst h
        exact h2
    · simp only [DOp.run] at h1
      rw [modOne] at h
      generalize dictRemoveOwned acc d key n false = r at h1 h
      obtain ⟨r1, d1⟩ := r
      cases r1 with
      | error e => cases h
      | ok b => cases h1

theorem modAll_represents (acc : Cell → Bool) {n : Nat} (hn : n ≤ 1023) : ∀ (es : List (Bits × Option Sl)) {d d' : Option Cell} {m : DMap},
    (∀ e ∈ es, e.1.length = n) → StrictlyOrdered es → RepresentsC acc n d m → modAll acc n es d = .ok d' → RepresentsC acc n d' (m.modified es)
  | [], d, d', m, _, _, hd, h => by
    injection h with h
    subst h
    exact hd
  | e :: es, d, d', m, hlen, hs, hd, h => by
    cases h1 : modOne acc n d e with
    | error x =>
      rw [modAll, h1] at h
      cases h
    | ok d1 =>
      have h : modAll acc n es d1 = .ok d' := by rw [modAll, h1] at h; exact h
      have hd1 := modOne_represents acc hn (hlen e List.mem_cons_self) hd h1
      have := modAll_represents acc hn es (fun e he => hlen e (List.mem_cons_of_mem _ he)) hs.tail.2 hd1 h
      have hm : (m.put e.1 e.2).modified es = m.modified (e :: es) := by
        funext k
        show (modOf es k).getD (if k = e.1 then e.2 else m k) = Option.getD (if k = e.1 then some e.2 else modOf es k) (m k)
        by_cases hk : k = e.1
        · rw [if_pos hk, if_pos hk, hk, hs.tail.1]; rfl
        · rw [if_neg hk, if_neg hk]
      rw [hm] at this
      exact this

theorem entryOf_inserts (es : List (Bits × Option Sl)) (hs : StrictlyOrdered es) (k : Bits) :
    entryOf (es.filterMap (fun p => p.2.map (fun v => (p.1, v)))) k = DMap.modified (fun _ => none) es k := by
  induction es with
  | nil => rfl
  | cons e es ih =>
    obtain ⟨key, v⟩ := e
    have ih := ih hs.tail.2
    show _ = Option.getD (if k = key then some v else modOf es k) none
    have ih' : entryOf (es.filterMap (fun p => p.2.map (fun v => (p.1, v)))) k = (modOf es k).getD none := ih
    cases v with
    | none =>
      show entryOf (es.filterMap (fun p => p.2.map (fun v => (p.1, v)))) k = _
      rw [ih']
      by_cases hk : k = key
      · rw [if_pos hk, hk, hs.tail.1]; rfl
      · rw [if_neg hk]
    | some v =>
      show (if k = key then some v else entryOf (es.filterMap (fun p => p.2.map (fun v => (p.1, v)))) k) = _
      by_cases hk : k = key
      · rw [if_pos hk, if_pos hk]; rfl
      · rw [if_neg hk, if_neg hk]; exact ih'

/-! ### Properties -/

/-- Bulk modification of a canonical dictionary yields the canonical dictionary of the modified map, with the extras
of the comparator if there is one. It fails only if there is no such dictionary, because a cell does not fit or the
comparator fails, and then it leaves the dictionary as it was. -/
theorem C28_modify (cmp : Comparator) (acc : Cell → Bool) {n : Nat} (hn : n ≤ 1023) {d : Option Cell} {m : DMap} (hd : RepresentsX cmp acc n d m)
    (es : List (Bits × Option Sl)) (hlen : ∀ e ∈ es, e.1.length = n) (hord : StrictlyOrdered es) :
    match modifyDict cmp acc n lexBits d es with
    | (.ok _, d') => RepresentsX cmp acc n d' (m.modified es)
    | (.error _, d') => d' = d ∧ ∀ d'', ¬ RepresentsX cmp acc n d'' (m.modified es) := by
  cases d with
  | none =>
    have hasc : Ascending (es.filterMap (fun p => p.2.map (fun v => (p.1, v)))) := by
      refine List.pairwise_filterMap.mpr (List.Pairwise.imp ?_ hord)
      rintro ⟨a, x⟩ ⟨b, y⟩ hab p hp q hq
      cases x with
      | none => cases hp
      | some x =>
        cases y with
        | none => cases hq
        | some y =>
          cases hp; cases hq
          show lexBits a b ≠ .gt
          have hab : lexBits a b = .lt := hab
          rw [hab]; decide
    have hb := C27_build cmp acc hn (es.filterMap (fun p => p.2.map (fun v => (p.1, v)))) (by
      intro e he
      obtain ⟨p, hp, h⟩ := List.mem_filterMap.mp he
      obtain ⟨v, _, rfl⟩ := Option.map_eq_some_iff.mp h
      exact hlen p hp) hasc
    have hm : ∀ k, k.length = n → entryOf (es.filterMap (fun p => p.2.map (fun v => (p.1, v)))) k = m.modified es k := by
      intro k hk
      rw [entryOf_inserts es hord k]
      unfold DMap.modified
      rw [hd k hk]
    show match (match buildDict cmp acc n lexBits (es.filterMap (fun p => p.2.map (fun v => (p.1, v)))) with
      | .error e => ((.error e, none) : DictRes Bool)
      | .ok d => (.ok d.isSome, d)) with | (.ok _, d') => _ | (.error _, d') => _
    cases hx : buildDict cmp acc n lexBits (es.filterMap (fun p => p.2.map (fun v => (p.1, v)))) with
    | error e =>
      rw [hx] at hb
      exact ⟨rfl, fun d hd' => hb d (representsX_congr hd' hm)⟩
    | ok d =>
      rw [hx] at hb
      exact representsX_congr hb (fun k hk => (hm k hk).symm)
  | some root =>
    cases es with
    | nil => exact hd
    | cons e es =>
      have h := modFull_spec cmp acc hn hd (es := e :: es) (by simp) hlen hord.ordered
      show match (match modFull cmp acc n lexBits root (e :: es) with
        | .error e => ((.error e, some root) : DictRes Bool)
        | .ok none => (.ok false, some root)
        | .ok (some d) => (.ok true, d)) with | (.ok _, d') => _ | (.error _, d') => _
      cases hx : modFull cmp acc n lexBits root (e :: es) with
      | error x => rw [hx] at h; exact ⟨rfl, h⟩
      | ok x =>
        rw [hx] at h
        cases x with
        | none => exact h.elim
        | some d => exact h

/-- If the modifications work one after the other, by single `set` and `remove` operations, then bulk modification
works and gives the same dictionary. -/
theorem C28_sequential (acc : Cell → Bool) {n : Nat} (hn : n ≤ 1023) {d d' : Option Cell} {m : DMap} (hd : RepresentsC acc n d m)
    (es : List (Bits × Option Sl)) (hlen : ∀ e ∈ es, e.1.length = n) (hord : StrictlyOrdered es) (h : modAll acc n es d = .ok d') :
    (modifyDict none acc n lexBits d es).2 = d' ∧ ∃ b, (modifyDict none acc n lexBits d es).1 = .ok b := by
  have h1 := (representsX_none acc n d' _).mpr (modAll_represents acc hn es hlen hord hd h)
  have h2 := C28_modify none acc hn ((representsX_none acc n d m).mpr hd) es hlen hord
  generalize modifyDict none acc n lexBits d es = r at *
  obtain ⟨r, x⟩ := r
  cases r with
  | error e => exact (h2.2 d' h1).elim
  | ok b => exact ⟨representsX_unique h2 h1 (fun _ _ => rfl), b, rfl⟩

/-- Any two ways of getting to the same map by bulk modifications yield the same dictionary. -/
theorem C28_same_map (cmp : Comparator) (acc : Cell → Bool) {n : Nat} (hn : n ≤ 1023) {d₁ d₂ d₁' d₂' : Option Cell} {m₁ m₂ : DMap} (h₁ : RepresentsX cmp acc n d₁ m₁)
    (h₂ : RepresentsX cmp acc n d₂ m₂) (es₁ es₂ : List (Bits × Option Sl)) (hl₁ : ∀ e ∈ es₁, e.1.length = n) (hl₂ : ∀ e ∈ es₂, e.1.length = n)
    (ho₁ : StrictlyOrdered es₁) (ho₂ : StrictlyOrdered es₂) {b₁ b₂ : Bool} (hr₁ : modifyDict cmp acc n lexBits d₁ es₁ = (.ok b₁, d₁'))
    (hr₂ : modifyDict cmp acc n lexBits d₂ es₂ = (.ok b₂, d₂')) (hm : ∀ k, k.length = n → m₁.modified es₁ k = m₂.modified es₂ k) : d₁' = d₂' := by
  have a := C28_modify cmp acc hn h₁ es₁ hl₁ ho₁
  have b := C28_modify cmp acc hn h₂ es₂ hl₂ ho₂
  rw [hr₁] at a
  rw [hr₂] at b
  exact representsX_unique a b hm

/-- With repeated keys, on a dictionary that is not empty: the first modification of each key counts. -/
theorem C28_repeated (cmp : Comparator) (acc : Cell → Bool) {n : Nat} (hn : n ≤ 1023) {root : Cell} {m : DMap} (hd : RepresentsX cmp acc n (some root) m)
    (es : List (Bits × Option Sl)) (hlen : ∀ e ∈ es, e.1.length = n) (hord : Ordered es) :
    match modifyDict cmp acc n lexBits (some root) es with
    | (.ok _, d') => RepresentsX cmp acc n d' (m.modified es)
    | (.error _, d') => d' = some root ∧ ∀ d'', ¬ RepresentsX cmp acc n d'' (m.modified es) := by
  cases es with
  | nil => exact hd
  | cons e es =>
    have h := modFull_spec cmp acc hn hd (es := e :: es) (by simp) hlen hord
    show match (match modFull cmp acc n lexBits root (e :: es) with
      | .error e => ((.error e, some root) : DictRes Bool)
      | .ok none => (.ok false, some root)
      | .ok (some d) => (.ok true, d)) with | (.ok _, d') => _ | (.error _, d') => _
    cases hx : modFull cmp acc n lexBits root (e :: es) with
    | error x => rw [hx] at h; exact ⟨rfl, h⟩
    | ok x =>
      rw [hx] at h
      cases x with
      | none => exact h.elim
      | some d => exact h

/-- Modifications out of order are refused, whatever the dictionary (if it is not empty). -/
theorem C28_unsorted (cmp : Comparator) (acc : Cell → Bool) {n : Nat} (root : Cell) (es : List (Bits × Option Sl)) (hlen : ∀ e ∈ es, e.1.length = n)
    (hord : ¬ Ordered es) : ∃ e, modifyDict cmp acc n lexBits (some root) es = (.error e, some root) := by
  cases es with
  | nil => exact absurd List.Pairwise.nil hord
  | cons e es =>
    obtain ⟨K, v⟩ := e
    have hK : K.length = n := hlen (K, v) List.mem_cons_self
    have hgo : ∃ e, modGo cmp acc root lexBits ((K, v) :: es) none [] [] = .error e := by
      rw [modGo_first]
      cases (IItem.load [] K.length root >>= fun it => doSeek cmp acc v.isNone (K.length + 1) [it] K []) with
      | error e => exact ⟨e, rfl⟩
      | ok r =>
        show ∃ e, (modApply cmp acc K v r >>= fun x => modGo cmp acc root lexBits es (some K) x.1 x.2) = .error e
        cases modApply cmp acc K v r with
        | error e => exact ⟨e, rfl⟩
        | ok x =>
          exact modGo_unsorted cmp acc root es K x.1 x.2 hK (fun e he => hlen e (List.mem_cons_of_mem _ he)) (fun h => hord (List.pairwise_cons.mpr h))
    obtain ⟨e, he⟩ := hgo
    refine ⟨e, ?_⟩
    have hfull : modFull cmp acc n lexBits root ((K, v) :: es) = .error e := by
      unfold modFull
      rw [he]; rfl
    show (match modFull cmp acc n lexBits root ((K, v) :: es) with
      | .error e => ((.error e, some root) : DictRes Bool)
      | .ok none => (.ok false, some root)
      | .ok (some d) => (.ok true, d)) = _
    rw [hfull]

/-! ### Cases -/

private def exRoot : Option Cell := (buildDict none accAll 3 lexBits
  [([false, false, false], ⟨[true], []⟩), ([false, true, true], ⟨[false], []⟩), ([true, false, true], ⟨[true, true], []⟩)]).toOption.join

private def exMods : List (Bits × Option Sl) :=
  [([false, false, false], none), ([false, false, true], some ⟨[false, false], []⟩), ([true, false, true], none), ([true, true, true], some ⟨[], []⟩)]

/-- Removals and insertions on both sides of a fork, one operation at a time and in bulk. -/
example : ∃ d, modAll accAll 3 exMods exRoot = .ok d ∧ modifyDict none accAll 3 lexBits exRoot exMods = (.ok true, d) ∧
    dictGet d 3 [false, false, true] = .ok (some ⟨[false, false], []⟩) ∧ dictGet d 3 [true, false, true] = .ok none ∧
    dictGet d 3 [false, true, true] = .ok (some ⟨[false], []⟩) := ⟨_, rfl, rfl, rfl, rfl, rfl⟩

example : StrictlyOrdered exMods := by unfold StrictlyOrdered exMods; decide

/-- With repeated keys bulk modification is not the same as single operations: here the second modification of the
key is dropped. -/
theorem C28_repeated_differs : ∃ d es a b, modAll accAll 1 es d = .ok a ∧ modifyDict none accAll 1 lexBits d es = (.ok true, b) ∧
    dictGet a 1 [true] = .ok (some ⟨[true], []⟩) ∧ dictGet b 1 [true] = .ok none :=
  ⟨(dictInsert accAll none [false] 1 ⟨[], []⟩ .set).2, [([true], none), ([true], some ⟨[true], []⟩)], _, _, rfl, rfl, rfl, rfl⟩

/-- On the empty dictionary removals are left out before anything else, so the same modifications give another map
and the order of the removals does not matter. -/
theorem C28_empty_differs : ∃ es a, modifyDict none accAll 1 lexBits none es = (.ok true, a) ∧ dictGet a 1 [true] = .ok (some ⟨[true], []⟩) ∧
    es = [([true], none), ([true], some ⟨[true], []⟩), ([false], none)] ∧ ¬ Ordered es :=
  ⟨_, _, rfl, rfl, rfl, by unfold Ordered; decide⟩

end Verif
