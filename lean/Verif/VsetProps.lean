import Verif.VsetLemmas
/-
C66: validator subsets. The pseudo-random numbers, the shuffle of the masterchain validators and the weighted
choice of the validators of a shard are what the protocol asks for, for every hash function.
-/
set_option linter.unusedVariables false
set_option linter.unusedSimpArgs false
namespace Verif
namespace Vset
open Boc

/-! ### Specification -/

/-- The bytes that follow the seed in the hashed text. -/
def tailOf (s : ShardIdent) (cc : Nat) : List Byte :=
  beBytes 8 s.pfx.toNat ++ beBytes 4 (s.workchain % 2 ^ 32).toNat ++ beBytes 4 cc

/-- The `n`-th pseudo-random number: every hash of the seed plus a counter (a number of 256 bits) and the tail
gives eight numbers, in order. -/
def number (H : List Byte → List Byte) (seed : List Byte) (tail : List Byte) (n : Nat) : Nat :=
  beNat (((H (beBytes 32 (beNat seed + n / 8) ++ tail)).drop (8 * (n % 8))).take 8)

/-- The first `n` numbers a generator returns. -/
def Prng.outputs (H : List Byte → List Byte) : Nat → Prng → List Nat
  | 0, _ => []
  | n + 1, p => (p.nextU64 H).1 :: Prng.outputs H n (p.nextU64 H).2

/-! ### The generator -/

/-- The state before the `n`-th number. -/
def At (H : List Byte → List Byte) (seed tail : List Byte) (n : Nat) (p : Prng) : Prop :=
  p.Ok ∧ p.context = beBytes 32 (beNat seed + (n + 7) / 8) ++ tail ∧
    ((n % 8 = 0 ∧ 7 ≤ p.bag.headD 0) ∨
     (0 < n % 8 ∧ p.bag = (n % 8 - 1) :: (List.range 7).map fun k => number H seed tail (8 * (n / 8) + (k + 1))))

theorem beBytes_mod (n v : Nat) : beBytes n (v % 256 ^ n) = beBytes n v := by
  induction n generalizing v with
  | zero => rfl
  | succ n ih =>
    have e1 : v % 256 ^ (n + 1) / 256 = (v / 256) % 256 ^ n := by
      rw [Nat.pow_succ, Nat.mul_comm, Nat.mod_mul_right_div_self]
    have e2 : BitVec.ofNat 8 (v % 256 ^ (n + 1)) = BitVec.ofNat 8 v := by
      apply BitVec.eq_of_toNat_eq
      rw [BitVec.toNat_ofNat, BitVec.toNat_ofNat]
      show _ % 256 = _ % 256
      rw [Nat.mod_mod_of_dvd _ ⟨256 ^ n, by rw [Nat.pow_succ, Nat.mul_comm]⟩]
    show beBytes n (_ / 256) ++ [_] = beBytes n (_ / 256) ++ [_]
    rw [e1, ih, e2]

theorem inc_bytes (n v : Nat) : (incRev (beBytes n v).reverse).reverse = beBytes n (v + 1) := by
  have hl : (beBytes n v).length = n := beBytes_length n v
  have h := incRev_spec (beBytes n v).reverse
  rw [List.length_reverse, hl, List.reverse_reverse, beNat_beBytes] at h
  have h2 := beBytes_beNat (incRev (beBytes n v).reverse).reverse
  rw [List.length_reverse, h.1, h.2] at h2
  rw [← h2, Nat.mod_add_mod, beBytes_mod]

theorem inc_context (n v : Nat) (tail : List Byte) :
    (incRev ((beBytes n v ++ tail).take n).reverse).reverse ++ (beBytes n v ++ tail).drop n = beBytes n (v + 1) ++ tail := by
  have hl : (beBytes n v).length = n := beBytes_length n v
  have e1 : (beBytes n v ++ tail).take n = beBytes n v := by
    rw [List.take_append_of_le_length (by omega), List.take_of_length_le (by omega)]
  have e2 : (beBytes n v ++ tail).drop n = tail := by
    rw [List.drop_append_of_le_length (by omega), List.drop_of_length_le (by omega)]; rfl
  rw [e1, e2, inc_bytes]

theorem at_start (H : List Byte → List Byte) {seed : List Byte} (hs : seed.length = 32) (s : ShardIdent) (cc : Nat) :
    At H seed (tailOf s cc) 0 (.withSeed s cc seed) := by
  refine ⟨withSeed_ok s cc seed, ?_, .inl ⟨rfl, by show 7 ≤ 8; decide⟩⟩
  show seed ++ _ = beBytes 32 (beNat seed + 0) ++ _
  have := beBytes_beNat seed
  rw [hs] at this
  rw [Nat.add_zero, this]
  rfl

theorem at_next (H : List Byte → List Byte) {seed tail : List Byte} {n : Nat} {p : Prng} (h : At H seed tail n p) :
    (p.nextU64 H).1 = number H seed tail n ∧ At H seed tail (n + 1) (p.nextU64 H).2 := by
  have hok := (nextU64_ok H h.1).1
  obtain ⟨h1, hctx, h2⟩ := h
  rcases h2 with ⟨hm, hc⟩ | ⟨hm, hb⟩
  · have e : p.nextU64 H = p.reset H := if_neg (by omega)
    rw [e] at hok ⊢
    have hq : (n + 7) / 8 = n / 8 := by omega
    have hnum : ∀ k, k < 8 → beNat (((H p.context).drop (8 * k)).take 8) = number H seed tail (8 * (n / 8) + k) := by
      intro k hk
      unfold number
      rw [hctx, hq, show (8 * (n / 8) + k) / 8 = n / 8 by omega, show (8 * (n / 8) + k) % 8 = k by omega]
    refine ⟨?_, hok, ?_, .inr ⟨by omega, ?_⟩⟩
    · show beNat (((H p.context).drop (8 * 0)).take 8) = _
      rw [hnum 0 (by decide)]
      congr 1; omega
    · show (incRev (p.context.take 32).reverse).reverse ++ p.context.drop 32 = _
      rw [hctx, inc_context, hq, show (n + 1 + 7) / 8 = n / 8 + 1 by omega]
      rfl
    · show (List.map _ (List.range 8)).set 0 0 = _
      rw [show (n + 1) % 8 - 1 = 0 by omega, show (n + 1) / 8 = n / 8 by omega]
      have : (List.range 8).map (fun k => beNat (((H p.context).drop (8 * k)).take 8)) =
          (List.range 8).map (fun k => number H seed tail (8 * (n / 8) + k)) :=
        List.map_congr_left fun k hk => hnum k (List.mem_range.1 hk)
      rw [this]
      rfl
  · have hcur : p.bag.headD 0 = n % 8 - 1 := by rw [hb]; rfl
    have e : p.nextU64 H = (p.bag.getD (1 + p.bag.headD 0) 0, ⟨p.context, p.bag.set 0 (p.bag.headD 0 + 1)⟩) :=
      if_pos (by rw [hcur]; omega)
    rw [e] at hok ⊢
    refine ⟨?_, hok, ?_, ?_⟩
    · dsimp only
      rw [hcur, show 1 + (n % 8 - 1) = (n % 8 - 1) + 1 by omega, hb, List.getD_cons_succ]
      rw [List.getD_eq_getElem?_getD, List.getElem?_map, List.getElem?_range (by omega)]
      show number H seed tail _ = _
      congr 1; omega
    · dsimp only
      rw [hctx, show (n + 1 + 7) / 8 = (n + 7) / 8 by omega]
    · dsimp only
      rw [hcur, hb, List.set_cons_zero, List.headD_cons]
      by_cases h7 : n % 8 = 7
      · exact .inl ⟨by omega, by omega⟩
      · refine .inr ⟨by omega, ?_⟩
        rw [show (n + 1) / 8 = n / 8 by omega, show n % 8 - 1 + 1 = (n + 1) % 8 - 1 by omega]

theorem at_stream (H : List Byte → List Byte) (seed tail : List Byte) : Stream H (number H seed tail) (At H seed tail) :=
  ⟨fun _ _ h => h.1, fun _ _ h => (at_next H h).1, fun _ _ h => (at_next H h).2⟩

/-- C66: the generator returns, for every seed, the numbers of the hashes of the seed, of the seed plus one and so
on, eight from each hash, each number once and in order; a seed of all ones wraps to zero. -/
theorem C66_prng (H : List Byte → List Byte) {seed : List Byte} (hs : seed.length = 32) (s : ShardIdent) (cc n : Nat) :
    (Prng.withSeed s cc seed).outputs H n = (List.range n).map (number H seed (tailOf s cc)) := by
  have key : ∀ n m p, At H seed (tailOf s cc) m p → p.outputs H n = (List.range' m n).map (number H seed (tailOf s cc)) := by
    intro n
    induction n with
    | zero => intro m p _; rfl
    | succ n ih =>
      intro m p h
      have h1 := at_next H h
      show (p.nextU64 H).1 :: _ = number H seed (tailOf s cc) m :: _
      rw [h1.1, ih (m + 1) _ h1.2]
  rw [key n 0 _ (at_start H hs s cc), List.range_eq_range']

-- A hash that returns its input twice: the counter is in the last byte of the seed.
example : ((Prng.withSeed ⟨0, ShardIdent.prefixFull⟩ 7 (List.replicate 32 0xff)).outputs (fun d => (d ++ d).take 64) 12) =
    [2 ^ 64 - 1, 2 ^ 64 - 1, 2 ^ 64 - 1, 2 ^ 64 - 1, 2 ^ 63, 7, 2 ^ 64 - 1, 2 ^ 64 - 1, 0, 0, 0, 0] := by decide +kernel

/-! ### Masterchain -/

/-- The numbers used for a subset: the zero seed. -/
def numbers (H : List Byte → List Byte) (s : ShardIdent) (cc : Nat) : Nat → Nat := number H (List.replicate 32 0) (tailOf s cc)

/-- C66: the masterchain subset consists of the first `main` validators (all of them if there are fewer), each exactly
once and unchanged: in their order without shuffling, and otherwise in the order that the generator's numbers
determine. Nothing panics. -/
theorem C66_mc (H : List Byte → List Byte) (vs : ValidatorSet) (cc : Nat) (shuffle : Bool) (hl : vs.list.length < 2 ^ 63) :
    ∃ subset, mcSubset H vs cc shuffle = .ok (some (subset, hashShort subset cc)) ∧
      subset.Perm (vs.list.take vs.main) ∧
      subset = (if shuffle then
        (arrange ((List.range (min vs.list.length vs.main)).map fun i => (i + 1) * numbers H ⟨-1, ShardIdent.prefixFull⟩ cc i / 2 ^ 64)).filterMap (vs.list[·]?)
        else vs.list.take vs.main) := by
  have hmin : vs.list.take (min vs.list.length vs.main) = vs.list.take vs.main := by
    rcases Nat.le_total vs.list.length vs.main with h | h
    · rw [Nat.min_eq_left h, List.take_of_length_le (Nat.le_refl _), List.take_of_length_le h]
    · rw [Nat.min_eq_right h]
  cases shuffle with
  | false =>
    refine ⟨vs.list.take vs.main, ?_, List.Perm.refl _, rfl⟩
    show Except.ok _ = _
    rw [hmin]
  | true =>
    have hcount : min vs.list.length vs.main ≤ vs.list.length := Nat.min_le_left _ _
    generalize hc : min vs.list.length vs.main = count at *
    have hat := at_start H (seed := List.replicate 32 0) (by simp) ⟨-1, ShardIdent.prefixFull⟩ cc
    obtain ⟨p', e, hd⟩ := shuffle_loop (at_stream H _ _) count _ [] hat (fun i j h => by simp at h) (by show 0 + count < _; omega)
    have edraws : ([] : List Nat) ++ drawsOf (number H (List.replicate 32 0) (tailOf ⟨-1, ShardIdent.prefixFull⟩ cc)) ([] : List Nat).length count =
        (List.range count).map fun i => (i + 1) * numbers H ⟨-1, ShardIdent.prefixFull⟩ cc i / 2 ^ 64 := by
      rw [List.nil_append, List.range_eq_range']; rfl
    rw [edraws] at e hd
    generalize hjs : ((List.range count).map fun i => (i + 1) * numbers H ⟨-1, ShardIdent.prefixFull⟩ cc i / 2 ^ 64) = js at *
    have hjl : js.length = count := by rw [← hjs]; simp
    have hperm := arrange_perm js hd
    rw [hjl] at hperm
    have hal : (arrange js).length = count := by rw [arrange_length, hjl]
    have htake : (arrange js).take count = arrange js := List.take_of_length_le (by omega)
    have hlook := lookAll_spec vs.list (arrange js) (fun i hi => by
      have := List.mem_range.1 (hperm.subset hi)
      omega)
    refine ⟨(arrange js).filterMap (vs.list[·]?), ?_, ?_, rfl⟩
    · unfold mcSubset
      dsimp only
      rw [hc, if_neg (by decide)]
      have e' : loop (shuffleStep H) (Prng.new ⟨-1, ShardIdent.prefixFull⟩ cc, List.replicate count 0) (List.range count) = .ok (p', arrange js) := by
        rw [List.range_eq_range']; exact e
      rw [e']
      dsimp only
      rw [htake, hlook]
    · have := hperm.filterMap (vs.list[·]?)
      rw [range_lookup vs.list count hcount] at this
      rw [← hmin]; exact this

/-- C66: the shuffle is fair: different draws give different orders, so that each of the `n!` orders comes from
exactly one of the `n!` sequences of draws, and every order is a permutation. -/
theorem C66_fair {js ks : List Nat} (hj : Draws js) (hk : Draws ks) :
    (arrange js).Perm (List.range js.length) ∧ (arrange js = arrange ks → js = ks) :=
  ⟨arrange_perm js hj, arrange_inj js ks hj hk⟩

example : arrange [0, 0, 1] = [1, 2, 0] ∧ arrange [0, 1, 1] = [0, 2, 1] ∧ arrange [0, 0, 0] = [2, 0, 1] := by decide

/-! ### Shards -/

theorem choose_spec (H : List Byte → List Byte) {l : List Validator} {total : Nat} (hw : Weighed l total) (s : ShardIdent) (num cc : Nat) :
    ∃ d, choose H total l (Prng.new s cc) num cc = .ok (some (d.filterMap (entryOf l), hashShort (d.filterMap (entryOf l)) cc)) ∧
      d.length = min l.length num ∧ d.Nodup ∧ (∀ i ∈ d, i < l.length) ∧ Picks (wt l) l.length (numbers H s cc) 0 [] d := by
  have hat := at_start H (seed := List.replicate 32 0) (by simp) s cc
  have h0 : Chosen l total ⟨Prng.new s cc, [], [], total⟩ [] :=
    ⟨withSeed_ok _ _ _, List.nodup_nil, (fun i hi => by cases hi), rfl, List.Perm.refl _, List.Pairwise.nil, rfl⟩
  obtain ⟨st, d, e, hch, hd, hp⟩ := pick_loop (at_stream H _ _) hw (List.range (min l.length num)) _ [] 0 hat h0
    (by rw [List.length_range]; show 0 + _ ≤ _; rw [Nat.zero_add]; exact Nat.min_le_left _ _)
  rw [List.nil_append] at hch
  rw [List.length_range] at hd
  refine ⟨d, ?_, hd, hch.nodup, hch.bound, hp⟩
  unfold choose
  rw [e, ← hch.nodes]

/-- A validator set as the loader makes it (the weight before each validator is the sum of the weights before it, the
total is the sum of all) with positive weights. -/
def WellWeighed (vs : ValidatorSet) : Prop := Weighed vs.list vs.totalWeight

/-- The validators a shard's subset is chosen from: without the first `main` ones if those are isolated. -/
def pool (vs : ValidatorSet) (isolate : Bool) : List Validator := if isolate then vs.list.drop vs.main else vs.list

/-- C66: outside the masterchain the subset has `num` validators, or all of the pool if it is smaller; they are all
different; and each is chosen with a probability proportional to its weight among the ones not yet chosen: it is the
one at the drawn place in the line of the remaining ones. There is no subset exactly when the masterchain validators
are isolated and there are no others. Nothing panics. -/
theorem C66_shard (H : List Byte → List Byte) {vs : ValidatorSet} (hw : WellWeighed vs) {s : ShardIdent} (hs : s.workchain ≠ -1)
    (isolate shuffle : Bool) (num cc : Nat) :
    (isolate = true ∧ vs.list.length ≤ vs.main → subset H vs s isolate shuffle num cc = .ok none) ∧
    (¬ (isolate = true ∧ vs.list.length ≤ vs.main) → ∃ d,
      subset H vs s isolate shuffle num cc =
        .ok (some (d.filterMap (entryOf (pool vs isolate)), hashShort (d.filterMap (entryOf (pool vs isolate))) cc)) ∧
      d.length = min (pool vs isolate).length num ∧ d.Nodup ∧ (∀ i ∈ d, i < (pool vs isolate).length) ∧
      Picks (wt (pool vs isolate)) (pool vs isolate).length (numbers H s cc) 0 [] d) := by
  have hmc : s.isMasterchain = false := by
    unfold ShardIdent.isMasterchain
    exact beq_eq_false_iff_ne.2 hs
  cases isolate with
  | false =>
    refine ⟨fun h => absurd h.1 (by decide), fun _ => ?_⟩
    obtain ⟨d, e, h⟩ := choose_spec H hw s num cc
    refine ⟨d, ?_, h⟩
    unfold subset
    rw [hmc]
    exact e
  | true =>
    constructor
    · rintro ⟨_, hle⟩
      unfold subset
      rw [hmc, if_neg (by decide), if_pos rfl, if_pos hle]
    · intro hn
      have hgt : ¬ vs.list.length ≤ vs.main := fun h => hn ⟨rfl, h⟩
      have hsum : 0 + ((vs.list.drop vs.main).map (·.weight)).sum < 2 ^ 64 := by
        have h1 := hw.small
        rw [hw.total_eq] at h1
        unfold before at h1
        rw [List.take_length, ← List.take_append_drop vs.main vs.list, List.map_append, List.sum_append] at h1
        omega
      obtain ⟨l', e1, hl'⟩ := reweigh_spec (vs.list.drop vs.main) 0 hsum
      show ∃ d, _ = Except.ok (some (d.filterMap (entryOf (vs.list.drop vs.main)), hashShort (d.filterMap (entryOf (vs.list.drop vs.main))) cc)) ∧
        d.length = min (vs.list.drop vs.main).length num ∧ d.Nodup ∧ (∀ i ∈ d, i < (vs.list.drop vs.main).length) ∧
        Picks (wt (vs.list.drop vs.main)) (vs.list.drop vs.main).length (numbers H s cc) 0 [] d
      have hpos : ∀ v ∈ vs.list.drop vs.main, 0 < v.weight := fun v hv => hw.pos v (List.mem_of_mem_drop hv)
      have hrun : subset H vs s true shuffle num cc = match reweigh (vs.list.drop vs.main) 0 with
          | .error e => .error e
          | .ok (list, total) => choose H total list (Prng.new s cc) num cc := by
        unfold subset
        rw [hmc, if_neg (by decide), if_pos rfl, if_neg hgt]
        rfl
      rw [hrun]
      generalize vs.list.drop vs.main = l at *
      rw [e1]
      dsimp only
      rw [Nat.zero_add] at hsum ⊢
      have hlen : l'.length = l.length := by
        rcases Nat.lt_trichotomy l'.length l.length with h | h | h
        · have := hl' l'.length
          rw [List.getElem?_eq_none (Nat.le_refl _), List.getElem?_eq_getElem h] at this; cases this
        · exact h
        · have := hl' l.length
          rw [List.getElem?_eq_none (Nat.le_refl l.length), List.getElem?_eq_getElem h] at this; cases this
      have hget : ∀ i (h : i < l'.length) (h' : i < l.length), l'[i] = l[i].after (before l i) := by
        intro i h h'
        have := hl' i
        rw [List.getElem?_eq_getElem h, List.getElem?_eq_getElem h', Nat.zero_add] at this
        exact Option.some.inj this
      have hwt : wt l' = wt l := by
        funext i
        unfold wt
        rw [hl' i]
        cases l[i]? <;> rfl
      have hent : entryOf l' = entryOf l := by
        funext i
        unfold entryOf
        rw [hl' i]
        cases l[i]? <;> rfl
      have hbef : ∀ i, i ≤ l.length → before l' i = before l i := by
        intro i hi
        rw [before_range l' i (by omega), before_range l i hi, hwt]
      have hweighed : Weighed l' ((l.map (·.weight)).sum) := by
        refine ⟨?_, ?_, hsum, ?_⟩
        · intro i hi
          rw [hget i hi (by omega), hbef i (by omega)]
          rfl
        · rw [hlen, hbef _ (Nat.le_refl _)]
          unfold before
          rw [List.take_length]
        · intro v hv
          obtain ⟨i, hi, rfl⟩ := List.mem_iff_getElem.1 hv
          rw [hget i hi (by omega)]
          exact hpos l[i] (List.getElem_mem _)
      obtain ⟨d, e, h1, h2, h3, h4⟩ := choose_spec H hweighed s num cc
      rw [hent] at e
      rw [hwt, hlen] at h4
      rw [hlen] at h1 h3
      exact ⟨d, e, h1, h2, h3, h4⟩

/-- C66: the choice is determined: there is only one sequence of that many choices. -/
theorem C66_determined {w : Nat → Nat} {size : Nat} {u : Nat → Nat} : ∀ {n : Nat} {c d d' : List Nat},
    Picks w size u n c d → Picks w size u n c d' → d.length = d'.length → d = d' := by
  intro n c d d' h
  induction h generalizing d' with
  | done => intro _ hl; cases d' with
    | nil => rfl
    | cons _ _ => simp at hl
  | @next n c i d hi hn hlo hhi _ ih =>
    intro h' hl
    cases h' with
    | done => simp at hl
    | @next _ _ j d2 hj hn' hlo' hhi' hrest =>
      have mono : ∀ a b, a < b → a ∉ c → leftBefore w c a + w a ≤ leftBefore w c b := by
        intro a b hab ha
        have hstep : ∀ k, leftBefore w c k ≤ leftBefore w c (k + 1) := by
          intro k
          unfold leftBefore
          rw [List.range_succ, List.filter_append, List.map_append, List.sum_append]
          omega
        have h1 : leftBefore w c (a + 1) = leftBefore w c a + w a := by
          unfold leftBefore
          rw [List.range_succ, List.filter_append, List.map_append, List.sum_append]
          simp [ha]
        rw [← h1]
        have : ∀ m, leftBefore w c (a + 1) ≤ leftBefore w c (a + 1 + m) := by
          intro m
          induction m with
          | zero => exact Nat.le_refl _
          | succ m ih2 => exact Nat.le_trans ih2 (hstep _)
        have := this (b - (a + 1))
        rw [show a + 1 + (b - (a + 1)) = b by omega] at this
        exact this
      have hij : i = j := by
        rcases Nat.lt_trichotomy i j with h | h | h
        · have := mono i j h hn; omega
        · exact h
        · have := mono j i h hn'; omega
      subst hij
      rw [ih hrest (by simpa using hl)]

/-- Three validators of weights 10, 20 and 30. -/
def exVset : ValidatorSet := ⟨0, 100, 1, 60,
  [⟨List.replicate 32 1, 10, none, 0, 0⟩, ⟨List.replicate 32 2, 20, none, 0, 10⟩, ⟨List.replicate 32 3, 30, none, 0, 30⟩]⟩

example : WellWeighed exVset := by
  refine ⟨?_, by decide, by decide, by decide⟩
  intro i h
  have : i = 0 ∨ i = 1 ∨ i = 2 := by have : exVset.list.length = 3 := rfl; omega
  rcases this with rfl | rfl | rfl <;> rfl

/-- The first bytes of the public keys of a subset. -/
def keysOf : Except Err (Option (List Validator × BitVec 32)) → List Byte
  | .ok (some (l, _)) => l.map fun v => v.publicKey.headD 0
  | _ => []

example : keysOf (subset (fun d => (d ++ d).take 64 |>.map (· + 0x80)) exVset ⟨0, ShardIdent.prefixFull⟩ false false 2 5) = [3, 2] := by
  decide +kernel
example : keysOf (subset (fun d => (d ++ d).take 64 |>.map (· + 0x80)) exVset ⟨0, ShardIdent.prefixFull⟩ true false 7 5) = [3, 2] := by
  decide +kernel

/-- The hypothesis of positive weights in `C66_shard` is needed, and the loader does not check it (see
`C68_zero_weight`): with a validator of weight zero a subset of two of the two validators cannot be chosen. The model
includes the debug assertion `total_wt > 0`; without it the code would choose the second validator twice. -/
theorem C66_zero_weight (H : List Byte → List Byte) :
    subset H ⟨0, 100, 1, 5, [⟨[], 0, none, 0, 0⟩, ⟨[], 5, none, 0, 0⟩]⟩ ⟨0, ShardIdent.prefixFull⟩ false false 2 1 = .error .panic := by
  have hok : (Prng.new ⟨0, ShardIdent.prefixFull⟩ 1).Ok := withSeed_ok _ _ _
  have h := nextRanged_ok H hok (r := 5) (by decide) (by decide)
  have key : ∀ p r, p < 5 → pickAt 5 [⟨[], 0, none, 0, 0⟩, ⟨[], 5, none, 0, 0⟩] ⟨Prng.new ⟨0, ShardIdent.prefixFull⟩ 1, [], [], 5⟩ r p =
      .ok ⟨r, [⟨[], 1, none, 0, 0⟩], [(0, 5)], 0⟩ := by
    intro p r hp
    have : p = 0 ∨ p = 1 ∨ p = 2 ∨ p = 3 ∨ p = 4 := by omega
    rcases this with rfl | rfl | rfl | rfl | rfl <;> rfl
  have e1 : pickStep H 5 [⟨[], 0, none, 0, 0⟩, ⟨[], 5, none, 0, 0⟩] ⟨Prng.new ⟨0, ShardIdent.prefixFull⟩ 1, [], [], 5⟩ 0 =
      .ok ⟨((Prng.new ⟨0, ShardIdent.prefixFull⟩ 1).nextRanged H 5).2, [⟨[], 1, none, 0, 0⟩], [(0, 5)], 0⟩ := key _ _ h.2.1
  show choose H 5 _ _ 2 1 = _
  unfold choose
  have e2 : loop (pickStep H 5 [⟨[], 0, none, 0, 0⟩, ⟨[], 5, none, 0, 0⟩]) ⟨Prng.new ⟨0, ShardIdent.prefixFull⟩ 1, [], [], 5⟩ [0, 1] = .error .panic := by
    unfold loop
    rw [e1]
    rfl
  rw [show (List.range (min [(⟨[], 0, none, 0, 0⟩ : Validator), ⟨[], 5, none, 0, 0⟩].length 2)) = [0, 1] from rfl, e2]

/-! ### The short hash -/

/-- C66: the short hash is the CRC-32C of the magic number, the catchain seqno, the number of validators and, for each
validator in order, the public key, the weight and the ADNL address (zeros if there is none), numbers being written
in little-endian order. -/
theorem C66_hash (subset : List Validator) (cc : Nat) :
    hashShort subset cc = crc32c ((beBytes 4 0x901660ED).reverse ++ (beBytes 4 cc).reverse ++ (beBytes 4 subset.length).reverse ++
      (subset.map fun v => v.publicKey ++ (beBytes 8 v.weight).reverse ++ v.adnl.getD (List.replicate 32 0)).flatten) := by
  have key : ∀ (l : List Validator) (h : BitVec 32), l.foldl (fun hash node =>
      crcAppend (crcAppend (crcAppend hash node.publicKey) (beBytes 8 node.weight).reverse) (node.adnl.getD (List.replicate 32 0))) h =
      crcAppend h (l.map fun v => v.publicKey ++ (beBytes 8 v.weight).reverse ++ v.adnl.getD (List.replicate 32 0)).flatten := by
    intro l
    induction l with
    | nil => intro h; exact (crcAppend_nil h).symm
    | cons v t ih =>
      intro h
      rw [List.foldl_cons, ih, crcAppend_append, crcAppend_append, crcAppend_append, List.map_cons, List.flatten_cons]
      simp only [List.append_assoc]
  show subset.foldl _ _ = _
  rw [key]
  unfold crc32c
  rw [crcAppend_append, crcAppend_append, crcAppend_append]
  simp only [List.append_assoc]

example : hashShort [⟨[1], 17, some [2], 0, 0⟩] 5 ≠ hashShort [⟨[1], 18, some [2], 0, 0⟩] 5 := by decide +kernel

end Vset
end Verif
