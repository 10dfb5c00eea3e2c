import Verif.Model.SumCosts
import Verif.Lemmas.Sums
import Mathlib.Analysis.SpecialFunctions.Pow.Real
import Mathlib.Tactic.FieldSimp
import Mathlib.Tactic.Positivity

/-!
# Lemmas about the work of the summatory functions
-/

namespace Rosemary.SumCosts

open Rosemary.Sieves Rosemary.Tables Rosemary.Sums Finset

/-! ## The counted functions compute the same -/

/-- Forget the count. -/
def forget (r : Except PyErr (Int × Cache × Nat)) : Except PyErr (Int × Cache) :=
  match r with
  | .error e => .error e
  | .ok (v, c, _) => .ok (v, c)

theorem prefixCacheC_fst (table : List Int) (w : Nat → Int) (is : List Nat) (cache : Cache) :
    (match prefixCacheC table w is cache with
      | .error e => .error e
      | .ok (c, _) => .ok c) = prefixCache table w is cache ∧
    ∀ c p, prefixCacheC table w is cache = .ok (c, p) → p = is.length := by
  induction is generalizing cache with
  | nil =>
    refine ⟨rfl, fun c p h => ?_⟩
    simp only [prefixCacheC, Except.ok.injEq, Prod.mk.injEq] at h
    exact h.2.symm
  | cons i is ih =>
    unfold prefixCacheC prefixCache
    rcases cache.lookup (i - 1) with _ | c
    · exact ⟨rfl, fun c p h => by simp at h⟩
    · rcases table[i]? with _ | t
      · exact ⟨rfl, fun c p h => by simp at h⟩
      · dsimp only
        obtain ⟨h1, h2⟩ := ih ((i, c + w i * t) :: cache)
        rw [← h1]
        rcases h : prefixCacheC table w is ((i, c + w i * t) :: cache) with e | ⟨c', p'⟩
        · exact ⟨rfl, fun c p h => by simp at h⟩
        · refine ⟨rfl, fun c p h3 => ?_⟩
          have := h2 _ _ h
          simp only [Except.ok.injEq, Prod.mk.injEq] at h3
          simp only [List.length_cons]; omega

theorem phiSumLoopC_fst {recC : Nat → Cache → Except PyErr (Int × Cache × Nat)}
    {rec : Nat → Cache → Except PyErr (Int × Cache)} (hrec : ∀ m c, forget (recC m c) = rec m c)
    (table : List Int) (n : Nat) (ds : List Nat) (value : Int) (cache : Cache) (p : Nat) :
    forget (phiSumLoopC recC table n ds value cache p) = phiSumLoop rec table n ds value cache := by
  induction ds generalizing value cache p with
  | nil => rfl
  | cons d ds ih =>
    unfold phiSumLoopC phiSumLoop
    rw [← hrec]
    rcases recC (n / d) cache with e | ⟨s, c, q⟩
    · rfl
    · dsimp only [forget]
      rcases table[d]? with _ | t
      · rfl
      · exact ih _ _ _

theorem phiSC_fst (sq : Nat → Nat) (table : List Int) (fuel n : Nat) (cache : Cache) :
    forget (phiSC sq table fuel n cache) = phiS sq table fuel n cache := by
  induction fuel generalizing n cache with
  | zero => rfl
  | succ fuel ih =>
    unfold phiSC phiS
    rcases cache.lookup n with _ | v
    · dsimp only
      rcases cache.lookup (sq n) with _ | cr
      · rfl
      · dsimp only
        rw [← phiSumLoopC_fst ih table n _ _ _ 0]
        rcases phiSumLoopC (phiSC sq table fuel) table n (pyRange 2 (sq n + 1)) (n - sq n * cr) cache 0 with e | ⟨s, c, q⟩
        · rfl
        · rfl
    · rfl

theorem tableSumC_fst (f : Nat → Int → Int) (table : List Int) (ds : List Nat) (acc : Int) (p : Nat) :
    (match tableSumC f table ds acc p with
      | .error e => .error e
      | .ok (c, _) => .ok c) = tableSum f table ds acc ∧
    ∀ c q, tableSumC f table ds acc p = .ok (c, q) → q = p + ds.length := by
  induction ds generalizing acc p with
  | nil =>
    refine ⟨rfl, fun c q h => ?_⟩
    simp only [tableSumC, Except.ok.injEq, Prod.mk.injEq] at h
    exact h.2.symm
  | cons d ds ih =>
    unfold tableSumC tableSum
    rcases table[d]? with _ | t
    · exact ⟨rfl, fun c p h => by simp at h⟩
    · dsimp only
      refine ⟨(ih _ _).1, fun c q h => ?_⟩
      have := (ih _ _).2 c q h
      simp only [List.length_cons]; omega

theorem weightedLoopC_fst {recC : Nat → Cache → Except PyErr (Int × Cache × Nat)}
    {rec : Nat → Cache → Except PyErr (Int × Cache)} (hrec : ∀ m c, forget (recC m c) = rec m c)
    (n : Nat) (ds : List Nat) (value : Int) (cache : Cache) (p : Nat) :
    forget (weightedLoopC recC n ds value cache p) = weightedLoop rec n ds value cache := by
  induction ds generalizing value cache p with
  | nil => rfl
  | cons d ds ih =>
    unfold weightedLoopC weightedLoop
    rw [← hrec]
    rcases recC (n / d) cache with e | ⟨s, c, q⟩
    · rfl
    · dsimp only [forget]
      rw [← hrec]
      rcases recC (d - 1) c with e | ⟨s, c, q⟩
      · rfl
      · exact ih _ _ _

theorem weightedTC_fst (sq : Nat → Nat) (table : List Int) (fuel n : Nat) (cache : Cache) :
    forget (weightedTC sq table fuel n cache) = weightedT sq table fuel n cache := by
  induction fuel generalizing n cache with
  | zero => rfl
  | succ fuel ih =>
    unfold weightedTC weightedT
    rcases cache.lookup n with _ | v
    · dsimp only
      rw [← (tableSumC_fst _ table (pyRange 1 (sq n + 1)) 0 0).1]
      rcases tableSumC (fun d t => (d * t * ((n / d : Nat) - d + 1) * ((n / d : Nat) + d)).fdiv 2) table
        (pyRange 1 (sq n + 1)) 0 0 with e | ⟨s1, p1⟩
      · rfl
      · dsimp only
        rw [← weightedLoopC_fst ih n _ _ _ 0]
        rcases weightedLoopC (weightedTC sq table fuel) n (pyRange 2 (sq n + 1)) 0 cache 0 with e | ⟨s, c, q⟩
        · rfl
        · dsimp only [forget]
          rw [← (tableSumC_fst _ table (pyRange 1 (sq n + 1)) 0 0).1]
          rcases tableSumC (fun d t => d * d * t) table (pyRange 1 (sq n + 1)) 0 0 with e | ⟨s3, p3⟩
          · rfl
          · rfl
    · rfl

theorem moebiusSumLoopC_fst {recC : Nat → Cache → Except PyErr (Int × Cache × Nat)}
    {rec : Nat → Cache → Except PyErr (Int × Cache)} (hrec : ∀ m c, forget (recC m c) = rec m c)
    (table : List Int) (n : Nat) (ds : List Nat) (value : Int) (cache : Cache) (p : Nat) :
    forget (moebiusSumLoopC recC table n ds value cache p) = moebiusSumLoop rec table n ds value cache := by
  induction ds generalizing value cache p with
  | nil => rfl
  | cons d ds ih =>
    unfold moebiusSumLoopC moebiusSumLoop
    rw [← hrec]
    rcases recC (n / d) cache with e | ⟨s, c, q⟩
    · rfl
    · dsimp only [forget]
      rw [← hrec]
      rcases recC (d - 1) c with e | ⟨s, c, q⟩
      · rfl
      · dsimp only [forget]
        rcases table[d]? with _ | t
        · rfl
        · exact ih _ _ _

theorem moebiusMC_fst (sq : Nat → Nat) (table : List Int) (fuel n : Nat) (cache : Cache) :
    forget (moebiusMC sq table fuel n cache) = moebiusM sq table fuel n cache := by
  induction fuel generalizing n cache with
  | zero => rfl
  | succ fuel ih =>
    unfold moebiusMC moebiusM
    rcases cache.lookup n with _ | v
    · dsimp only
      rw [← moebiusSumLoopC_fst ih table n _ _ _ 0]
      rcases moebiusSumLoopC (moebiusMC sq table fuel) table n (pyRange 2 (sq n + 1)) (n - 1) cache 0 with e | ⟨s, c, q⟩
      · rfl
      · rfl
    · rfl

/-! ## What a call adds to the cache -/

theorem lookup_none (c : Cache) (k : Nat) : c.lookup k = none ↔ k ∉ c.map Prod.fst := by
  induction c with
  | nil => simp
  | cons x c ih =>
    rw [List.lookup_cons]
    by_cases h : k = x.1
    · simp [h]
    · have : (k == x.1) = false := by simpa using h
      rw [this]
      simp only [List.map_cons, List.mem_cons, not_or]
      rw [ih]
      exact ⟨fun h' => ⟨h, h'⟩, fun h' => h'.2⟩

/-- The cache `c'` is `c` with new entries at quotients `v / d`, `d ≥ D`, each of which was paid with `W` passes. -/
def Ext (W : Nat → Nat) (v D : Nat) (c c' : Cache) (p : Nat) : Prop :=
  ∃ added : Cache, c' = added ++ c ∧ (added.map Prod.fst).Nodup ∧
    (∀ k ∈ added.map Prod.fst, k ∉ c.map Prod.fst ∧ 0 < k ∧ ∃ d, D ≤ d ∧ k = v / d) ∧
    p = (added.map fun x => W x.1).sum

theorem Ext.refl (W : Nat → Nat) (v D : Nat) (c : Cache) : Ext W v D c c 0 := ⟨[], rfl, by simp, by simp, rfl⟩

theorem Ext.trans {W : Nat → Nat} {v D p q : Nat} {c c1 c2 : Cache} (h : Ext W v D c c1 p) (h' : Ext W v D c1 c2 q) :
    Ext W v D c c2 (p + q) := by
  obtain ⟨a, rfl, ha, ha2, rfl⟩ := h
  obtain ⟨b, rfl, hb, hb2, rfl⟩ := h'
  refine ⟨b ++ a, by simp, ?_, ?_, by simp [Nat.add_comm]⟩
  · rw [List.map_append, List.nodup_append]
    refine ⟨hb, ha, fun x hx y hy hxy => ?_⟩
    subst hxy
    have := (hb2 x hx).1
    rw [List.map_append, List.mem_append, not_or] at this
    exact this.1 hy
  · intro k hk
    rw [List.map_append, List.mem_append] at hk
    rcases hk with hk | hk
    · obtain ⟨h1, h2⟩ := hb2 k hk
      rw [List.map_append, List.mem_append, not_or] at h1
      exact ⟨h1.2, h2⟩
    · exact ha2 k hk

theorem Ext.quot {W : Nat → Nat} {n d p : Nat} {c c' : Cache} (hd : 2 ≤ d) (h : Ext W (n / d) 1 c c' p) : Ext W n 2 c c' p := by
  obtain ⟨a, h1, h2, h3, h4⟩ := h
  refine ⟨a, h1, h2, fun k hk => ?_, h4⟩
  obtain ⟨k1, k2, e, he, rfl⟩ := h3 k hk
  refine ⟨k1, k2, d * e, by nlinarith, ?_⟩
  rw [Nat.div_div_eq_div_mul]

theorem Ext.close {W : Nat → Nat} {n p : Nat} {c c' : Cache} (hn : 0 < n) (hc : c.lookup n = none) (v : Int)
    (h : Ext W n 2 c c' p) : Ext W n 1 c ((n, v) :: c') (p + W n) := by
  obtain ⟨a, rfl, h2, h3, rfl⟩ := h
  refine ⟨(n, v) :: a, rfl, ?_, ?_, by simp [Nat.add_comm]⟩
  · rw [List.map_cons, List.nodup_cons]
    refine ⟨fun hm => ?_, h2⟩
    obtain ⟨-, -, d, hd, he⟩ := h3 n hm
    have := Nat.div_lt_self hn (show 1 < d by omega)
    omega
  · intro k hk
    rw [List.map_cons, List.mem_cons] at hk
    rcases hk with rfl | hk
    · exact ⟨(lookup_none _ _).1 hc, hn, 1, by omega, by simp⟩
    · obtain ⟨k1, k2, d, hd, he⟩ := h3 k hk
      exact ⟨k1, k2, d, by omega, he⟩

/-- The cache has the keys `1, …, s`. -/
def Full (s : Nat) (c : Cache) : Prop := ∀ k, 0 < k → k ≤ s → (c.lookup k).isSome

theorem lookup_isSome (c : Cache) (k : Nat) : (c.lookup k).isSome ↔ k ∈ c.map Prod.fst := by
  have := lookup_none c k
  rcases h : c.lookup k with _ | v
  · simp [h] at this ⊢; exact fun x => this x
  · simp [h] at this ⊢; exact this

theorem Ext.full {W : Nat → Nat} {s v D p : Nat} {c c' : Cache} (h : Ext W v D c c' p) (hf : Full s c) : Full s c' := by
  obtain ⟨a, rfl, -⟩ := h
  intro k h0 hk
  rw [lookup_isSome, List.map_append, List.mem_append]
  exact .inr ((lookup_isSome _ _).1 (hf k h0 hk))

/-- The work of an inner function on arguments below `n`. -/
def RecCost (W : Nat → Nat) (s n : Nat) (rec : Nat → Cache → Except PyErr (Int × Cache × Nat)) : Prop :=
  ∀ m c x c' q, 0 < m → m < n → Full s c → rec m c = .ok (x, c', q) →
    Ext W m 1 c c' q ∧ ((c.lookup m).isSome → c' = c ∧ q = 0)

theorem phiSumLoopC_cost {W : Nat → Nat} {s n : Nat} {table : List Int}
    (rec : Nat → Cache → Except PyErr (Int × Cache × Nat)) (hrec : RecCost W s n rec) (ds : List Nat)
    (hds : ∀ d ∈ ds, 2 ≤ d ∧ d ≤ s ∧ d ≤ n) (value : Int) (cache : Cache) (p : Nat) (hc : Full s cache)
    (x : Int) (c' : Cache) (q : Nat) (h : phiSumLoopC rec table n ds value cache p = .ok (x, c', q)) :
    ∃ r, Ext W n 2 cache c' r ∧ q = p + r + ds.length := by
  induction ds generalizing value cache p with
  | nil =>
    simp only [phiSumLoopC, Except.ok.injEq, Prod.mk.injEq] at h
    obtain ⟨rfl, rfl, rfl⟩ := h
    exact ⟨0, Ext.refl _ _ _ _, by simp⟩
  | cons d ds ih =>
    obtain ⟨h1, h2, h3⟩ := hds d (by simp)
    unfold phiSumLoopC at h
    rcases hr : rec (n / d) cache with e | ⟨s1, c1, q1⟩
    · rw [hr] at h; simp at h
    · rw [hr] at h
      dsimp only at h
      obtain ⟨k1, -⟩ := hrec _ _ _ _ _ (Nat.div_pos h3 (by omega)) (Nat.div_lt_self (by omega) (by omega)) hc hr
      rcases htd : table[d]? with _ | t
      · rw [htd] at h; simp at h
      · rw [htd] at h
        dsimp only at h
        obtain ⟨r, hr1, hr2⟩ := ih (fun d hd => hds d (by simp [hd])) _ _ _ (k1.full hc) h
        exact ⟨q1 + r, (k1.quot h1).trans hr1, by simp only [List.length_cons]; omega⟩

theorem phiSC_cost {sq : Nat → Nat} {N : Nat} {table : List Int} (hsq : ExactSqrt sq N) (fuel n : Nat)
    (h0 : 0 < n) (hn : n ≤ N) (cache : Cache) (hc : Full (sq N) cache) (x : Int) (c' : Cache) (q : Nat)
    (h : phiSC sq table fuel n cache = .ok (x, c', q)) :
    Ext (fun k => sq k - 1) n 1 cache c' q ∧ ((cache.lookup n).isSome → c' = cache ∧ q = 0) := by
  induction fuel generalizing n cache x c' q with
  | zero => simp [phiSC] at h
  | succ fuel ih =>
    unfold phiSC at h
    rcases hl : cache.lookup n with _ | v
    · rw [hl] at h
      dsimp only at h
      rcases hlc : cache.lookup (sq n) with _ | cr
      · rw [hlc] at h; simp at h
      · rw [hlc] at h
        dsimp only at h
        rcases hr : phiSumLoopC (phiSC sq table fuel) table n (pyRange 2 (sq n + 1)) (n - sq n * cr) cache 0
          with e | ⟨s1, c1, q1⟩
        · rw [hr] at h; simp at h
        · rw [hr] at h
          simp only [Except.ok.injEq, Prod.mk.injEq] at h
          obtain ⟨-, rfl, rfl⟩ := h
          obtain ⟨r, hr1, hr2⟩ := phiSumLoopC_cost (phiSC sq table fuel)
            (fun m c x c' q hm hmn hf h => ih m hm (by omega) c hf x c' q h) (pyRange 2 (sq n + 1))
            (fun d hd => by
              rw [mem_pyRange] at hd
              have := hsq.mono hn
              have := hsq.le hn
              omega) _ _ _ hc _ _ _ hr
          refine ⟨?_, by simp⟩
          have := hr1.close h0 hl (((n : Int) * (n + 1)).fdiv 2 - s1)
          convert this using 1
          rw [hr2]; simp [pyRange]
    · rw [hl] at h
      simp only [Except.ok.injEq, Prod.mk.injEq] at h
      obtain ⟨-, rfl, rfl⟩ := h
      exact ⟨Ext.refl _ _ _ _, fun _ => ⟨rfl, rfl⟩⟩

theorem weightedLoopC_cost {W : Nat → Nat} {s n : Nat}
    (rec : Nat → Cache → Except PyErr (Int × Cache × Nat)) (hrec : RecCost W s n rec) (ds : List Nat)
    (hds : ∀ d ∈ ds, 2 ≤ d ∧ d ≤ s ∧ d ≤ n) (value : Int) (cache : Cache) (p : Nat) (hc : Full s cache)
    (x : Int) (c' : Cache) (q : Nat) (h : weightedLoopC rec n ds value cache p = .ok (x, c', q)) :
    ∃ r, Ext W n 2 cache c' r ∧ q = p + r + ds.length := by
  induction ds generalizing value cache p with
  | nil =>
    simp only [weightedLoopC, Except.ok.injEq, Prod.mk.injEq] at h
    obtain ⟨rfl, rfl, rfl⟩ := h
    exact ⟨0, Ext.refl _ _ _ _, by simp⟩
  | cons d ds ih =>
    obtain ⟨h1, h2, h3⟩ := hds d (by simp)
    unfold weightedLoopC at h
    rcases hr : rec (n / d) cache with e | ⟨s1, c1, q1⟩
    · rw [hr] at h; simp at h
    · rw [hr] at h
      dsimp only at h
      obtain ⟨k1, -⟩ := hrec _ _ _ _ _ (Nat.div_pos h3 (by omega)) (Nat.div_lt_self (by omega) (by omega)) hc hr
      rcases hr' : rec (d - 1) c1 with e | ⟨s2, c2, q2⟩
      · rw [hr'] at h; simp at h
      · rw [hr'] at h
        dsimp only at h
        obtain ⟨-, k2⟩ := hrec _ _ _ _ _ (by omega) (by omega) (k1.full hc) hr'
        obtain ⟨rfl, rfl⟩ := k2 (k1.full hc _ (by omega) (by omega))
        obtain ⟨r, hr1, hr2⟩ := ih (fun d hd => hds d (by simp [hd])) _ _ _ (k1.full hc) h
        exact ⟨q1 + r, (k1.quot h1).trans hr1, by simp only [List.length_cons]; omega⟩

theorem weightedTC_cost {sq : Nat → Nat} {N : Nat} {table : List Int} (hsq : ExactSqrt sq N) (fuel n : Nat)
    (h0 : 0 < n) (hn : n ≤ N) (cache : Cache) (hc : Full (sq N) cache) (x : Int) (c' : Cache) (q : Nat)
    (h : weightedTC sq table fuel n cache = .ok (x, c', q)) :
    Ext (fun k => 3 * sq k - 1) n 1 cache c' q ∧ ((cache.lookup n).isSome → c' = cache ∧ q = 0) := by
  induction fuel generalizing n cache x c' q with
  | zero => simp [weightedTC] at h
  | succ fuel ih =>
    unfold weightedTC at h
    rcases hl : cache.lookup n with _ | v
    · rw [hl] at h
      dsimp only at h
      have hpos := hsq.pos hn h0
      rcases ht1 : tableSumC (fun d t => (d * t * ((n / d : Nat) - d + 1) * ((n / d : Nat) + d)).fdiv 2) table
        (pyRange 1 (sq n + 1)) 0 0 with e | ⟨s1, p1⟩
      · rw [ht1] at h; simp at h
      · rw [ht1] at h
        dsimp only at h
        have hp1 := (tableSumC_fst _ _ _ _ _).2 _ _ ht1
        rcases hr : weightedLoopC (weightedTC sq table fuel) n (pyRange 2 (sq n + 1)) 0 cache 0
          with e | ⟨s2, c2, p2⟩
        · rw [hr] at h; simp at h
        · rw [hr] at h
          dsimp only at h
          rcases ht3 : tableSumC (fun d t => d * d * t) table (pyRange 1 (sq n + 1)) 0 0 with e | ⟨s3, p3⟩
          · rw [ht3] at h; simp at h
          · rw [ht3] at h
            have hp3 := (tableSumC_fst _ _ _ _ _).2 _ _ ht3
            simp only [Except.ok.injEq, Prod.mk.injEq] at h
            obtain ⟨-, rfl, rfl⟩ := h
            obtain ⟨r, hr1, hr2⟩ := weightedLoopC_cost (weightedTC sq table fuel)
              (fun m c x c' q hm hmn hf h => ih m hm (by omega) c hf x c' q h) (pyRange 2 (sq n + 1))
              (fun d hd => by
                rw [mem_pyRange] at hd
                have := hsq.mono hn
                have := hsq.le hn
                omega) _ _ _ hc _ _ _ hr
            refine ⟨?_, by simp⟩
            have := hr1.close h0 hl (((n : Int) * (n + 1) * (2 * n + 1)).fdiv 6 - (s1 + s2 - s3))
            convert this using 1
            rw [hr2, hp1, hp3]; simp [pyRange]; omega
    · rw [hl] at h
      simp only [Except.ok.injEq, Prod.mk.injEq] at h
      obtain ⟨-, rfl, rfl⟩ := h
      exact ⟨Ext.refl _ _ _ _, fun _ => ⟨rfl, rfl⟩⟩

theorem moebiusSumLoopC_cost {W : Nat → Nat} {s n : Nat} {table : List Int}
    (rec : Nat → Cache → Except PyErr (Int × Cache × Nat)) (hrec : RecCost W s n rec) (ds : List Nat)
    (hds : ∀ d ∈ ds, 2 ≤ d ∧ d ≤ s ∧ d ≤ n) (value : Int) (cache : Cache) (p : Nat) (hc : Full s cache)
    (x : Int) (c' : Cache) (q : Nat) (h : moebiusSumLoopC rec table n ds value cache p = .ok (x, c', q)) :
    ∃ r, Ext W n 2 cache c' r ∧ q = p + r + ds.length := by
  induction ds generalizing value cache p with
  | nil =>
    simp only [moebiusSumLoopC, Except.ok.injEq, Prod.mk.injEq] at h
    obtain ⟨rfl, rfl, rfl⟩ := h
    exact ⟨0, Ext.refl _ _ _ _, by simp⟩
  | cons d ds ih =>
    obtain ⟨h1, h2, h3⟩ := hds d (by simp)
    unfold moebiusSumLoopC at h
    rcases hr : rec (n / d) cache with e | ⟨s1, c1, q1⟩
    · rw [hr] at h; simp at h
    · rw [hr] at h
      dsimp only at h
      obtain ⟨k1, -⟩ := hrec _ _ _ _ _ (Nat.div_pos h3 (by omega)) (Nat.div_lt_self (by omega) (by omega)) hc hr
      rcases hr' : rec (d - 1) c1 with e | ⟨s2, c2, q2⟩
      · rw [hr'] at h; simp at h
      · rw [hr'] at h
        dsimp only at h
        obtain ⟨-, k2⟩ := hrec _ _ _ _ _ (by omega) (by omega) (k1.full hc) hr'
        obtain ⟨rfl, rfl⟩ := k2 (k1.full hc _ (by omega) (by omega))
        rcases htd : table[d]? with _ | t
        · rw [htd] at h; simp at h
        · rw [htd] at h
          dsimp only at h
          obtain ⟨r, hr1, hr2⟩ := ih (fun d hd => hds d (by simp [hd])) _ _ _ (k1.full hc) h
          exact ⟨q1 + r, (k1.quot h1).trans hr1, by simp only [List.length_cons]; omega⟩

theorem moebiusMC_cost {sq : Nat → Nat} {N : Nat} {table : List Int} (hsq : ExactSqrt sq N) (fuel n : Nat)
    (h0 : 0 < n) (hn : n ≤ N) (cache : Cache) (hc : Full (sq N) cache) (x : Int) (c' : Cache) (q : Nat)
    (h : moebiusMC sq table fuel n cache = .ok (x, c', q)) :
    Ext (fun k => sq k - 1) n 1 cache c' q ∧ ((cache.lookup n).isSome → c' = cache ∧ q = 0) := by
  induction fuel generalizing n cache x c' q with
  | zero => simp [moebiusMC] at h
  | succ fuel ih =>
    unfold moebiusMC at h
    rcases hl : cache.lookup n with _ | v
    · rw [hl] at h
      dsimp only at h
      rcases hr : moebiusSumLoopC (moebiusMC sq table fuel) table n (pyRange 2 (sq n + 1)) (n - 1) cache 0
        with e | ⟨s1, c1, q1⟩
      · rw [hr] at h; simp at h
      · rw [hr] at h
        simp only [Except.ok.injEq, Prod.mk.injEq] at h
        obtain ⟨-, rfl, rfl⟩ := h
        obtain ⟨r, hr1, hr2⟩ := moebiusSumLoopC_cost (moebiusMC sq table fuel)
          (fun m c x c' q hm hmn hf h => ih m hm (by omega) c hf x c' q h) (pyRange 2 (sq n + 1))
          (fun d hd => by
            rw [mem_pyRange] at hd
            have := hsq.mono hn
            have := hsq.le hn
            omega) _ _ _ hc _ _ _ hr
        refine ⟨?_, by simp⟩
        have := hr1.close h0 hl (1 - s1)
        convert this using 1
        rw [hr2]; simp [pyRange]
    · rw [hl] at h
      simp only [Except.ok.injEq, Prod.mk.injEq] at h
      obtain ⟨-, rfl, rfl⟩ := h
      exact ⟨Ext.refl _ _ _ _, fun _ => ⟨rfl, rfl⟩⟩

/-! ## The total -/

theorem Ext.total {W : Nat → Nat} {N s p : Nat} {c c' : Cache} (h : Ext W N 1 c c' p) (hf : Full s c)
    (hN : N < (s + 1) * (s + 1)) : p ≤ ∑ d ∈ Icc 1 s, W (N / d) := by
  obtain ⟨a, -, h2, h3, rfl⟩ := h
  have e1 : (a.map fun x => W x.1).sum = ∑ k ∈ (a.map Prod.fst).toFinset, W k := by
    rw [List.sum_toFinset _ h2, List.map_map]; rfl
  rw [e1]
  have hk : ∀ k ∈ (a.map Prod.fst).toFinset, 1 ≤ N / k ∧ N / k ≤ s ∧ N / (N / k) = k := by
    intro k hk
    rw [List.mem_toFinset] at hk
    obtain ⟨k1, k2, d, hd, he⟩ := h3 k hk
    have hks : s < k := by
      by_contra hc
      exact k1 ((lookup_isSome _ _).1 (hf k k2 (by omega)))
    have hkN : k ≤ N := by rw [he]; exact Nat.div_le_self _ _
    have hlt : N / k ≤ s := by
      have : N / k < s + 1 := by
        rw [Nat.div_lt_iff_lt_mul k2]
        calc N < (s + 1) * (s + 1) := hN
          _ ≤ (s + 1) * k := Nat.mul_le_mul_left _ hks
      omega
    have hdk : d ≤ N / k := by
      rw [Nat.le_div_iff_mul_le k2, he]; exact Nat.mul_div_le _ _
    refine ⟨Nat.div_pos hkN k2, hlt, ?_⟩
    apply Nat.le_antisymm
    · calc N / (N / k) ≤ N / d := Nat.div_le_div_left hdk (by omega)
        _ = k := he.symm
    · rw [Nat.le_div_iff_mul_le (Nat.div_pos hkN k2)]; exact Nat.mul_div_le _ _
  calc ∑ k ∈ (a.map Prod.fst).toFinset, W k = ∑ k ∈ (a.map Prod.fst).toFinset, W (N / (N / k)) :=
        sum_congr rfl fun k h => by rw [(hk k h).2.2]
    _ = ∑ d ∈ (a.map Prod.fst).toFinset.image (fun k => N / k), W (N / d) := by
        rw [sum_image]
        intro x hx y hy hxy
        have hxy : N / x = N / y := hxy
        rw [← (hk x hx).2.2, ← (hk y hy).2.2, hxy]
    _ ≤ _ := by
        refine sum_le_sum_of_subset ?_
        intro d hd
        obtain ⟨k, h, rfl⟩ := mem_image.1 hd
        exact mem_Icc.2 ⟨(hk k h).1, (hk k h).2.1⟩

theorem sum_inv_sqrt (K : ℕ) : ∑ d ∈ Icc 1 K, (1 / √(d : ℝ)) ≤ 2 * √(K : ℝ) := by
  induction K with
  | zero => simp
  | succ K ih =>
    rw [sum_Icc_succ_top (by omega)]
    have h1 : (0 : ℝ) < √((K + 1 : ℕ) : ℝ) := Real.sqrt_pos.2 (by positivity)
    have h2 : (0 : ℝ) ≤ √(K : ℝ) := Real.sqrt_nonneg _
    have h3 : √((K + 1 : ℕ) : ℝ) ^ 2 = K + 1 := by rw [Real.sq_sqrt (by positivity)]; push_cast; ring
    have h4 : √(K : ℝ) ^ 2 = K := Real.sq_sqrt (by positivity)
    have h5 : 1 / √((K + 1 : ℕ) : ℝ) ≤ 2 * √((K + 1 : ℕ) : ℝ) - 2 * √(K : ℝ) := by
      rw [div_le_iff₀ h1]
      nlinarith [sq_nonneg (√((K + 1 : ℕ) : ℝ) - √(K : ℝ))]
    linarith

/-- `∑ ⌊√(N/d)⌋` over `d ≤ √N` is at most `2 N^(3/4)`. -/
theorem sum_sqrt_le {sq : Nat → Nat} {N : Nat} (hsq : ExactSqrt sq N) :
    (∑ d ∈ Icc 1 (sq N), sq (N / d)) ^ 4 ≤ 16 * N ^ 3 := by
  set s := sq N with hs
  set A := ∑ d ∈ Icc 1 s, sq (N / d) with hA
  have h1 : (A : ℝ) ≤ √(N : ℝ) * (2 * √(s : ℝ)) := by
    calc (A : ℝ) = ∑ d ∈ Icc 1 s, (sq (N / d) : ℝ) := by rw [hA]; push_cast; rfl
      _ ≤ ∑ d ∈ Icc 1 s, √(N : ℝ) * (1 / √(d : ℝ)) := by
          refine sum_le_sum fun d hd => ?_
          obtain ⟨hd1, hd2⟩ := mem_Icc.1 hd
          have h2 := (hsq (N / d) (Nat.div_le_self _ _)).1
          have hd0 : (0 : ℝ) < d := by exact_mod_cast hd1
          rw [mul_one_div, ← Real.sqrt_div (by positivity)]
          refine Real.le_sqrt_of_sq_le ?_
          rw [le_div_iff₀ hd0]
          have h3 : sq (N / d) * sq (N / d) * d ≤ N :=
            (Nat.mul_le_mul_right _ h2).trans (Nat.div_mul_le_self _ _)
          calc ((sq (N / d) : ℝ)) ^ 2 * d = ((sq (N / d) * sq (N / d) * d : ℕ) : ℝ) := by push_cast; ring
            _ ≤ N := by exact_mod_cast h3
      _ = √(N : ℝ) * ∑ d ∈ Icc 1 s, (1 / √(d : ℝ)) := by rw [mul_sum]
      _ ≤ _ := mul_le_mul_of_nonneg_left (sum_inv_sqrt s) (Real.sqrt_nonneg _)
  have hN : √(N : ℝ) ^ 2 = N := Real.sq_sqrt (by positivity)
  have hS : √(s : ℝ) ^ 2 = s := Real.sq_sqrt (by positivity)
  have h4 : (A : ℝ) ^ 4 ≤ (√(N : ℝ) * (2 * √(s : ℝ))) ^ 4 := pow_le_pow_left₀ (by positivity) h1 4
  have h5 : (√(N : ℝ) * (2 * √(s : ℝ))) ^ 4 = 16 * ((N : ℝ) ^ 2 * (s * s)) := by
    calc _ = 16 * ((√(N : ℝ) ^ 2) ^ 2 * ((√(s : ℝ) ^ 2) * (√(s : ℝ) ^ 2))) := by ring
      _ = _ := by rw [hN, hS]
  have h6 : ((s : ℝ) * s) ≤ N := by exact_mod_cast (hsq N (le_refl _)).1
  have h7 : (A : ℝ) ^ 4 ≤ 16 * (N : ℝ) ^ 3 := by
    rw [h5] at h4
    refine h4.trans ?_
    have : (N : ℝ) ^ 2 * (s * s) ≤ (N : ℝ) ^ 2 * N := mul_le_mul_of_nonneg_left h6 (by positivity)
    nlinarith
  exact_mod_cast h7

end Rosemary.SumCosts
