import Verif.Lemmas.PellSolutions
import Verif.Props.ContinuedFractions
import Mathlib.NumberTheory.Zsqrtd.Basic

/-!
# C95: the solutions of `x² - D y² = N`

`rnd` and `fac` stand for the random choices and the factorization of `D` in `sqrts_mod_n`; `fb K` stands for
`int((K / 2.0)**(0.5))`.  The hypothesis `hfb` says that this floating point number has the right integer part for the one
`K` that is used.
-/

namespace Rosemary.Props

open Rosemary.Pell Rosemary.PellClasses Rosemary.ContinuedFractions Rosemary.Core

private theorem residues_spec {D N : ℤ} (hD : 2 ≤ D) {rnd : ℕ → ℕ → ℤ} {fac : List (ℕ × ℕ)} (hf : FactorsTo fac D.toNat)
    {r : Except PyErr (List ℤ)} (h : Zn.sqrtsModN rnd N fac = some r) :
    ∃ R, r = .ok R ∧ R.Pairwise (· < ·) ∧ ∀ x, x ∈ R ↔ 0 ≤ x ∧ x < D ∧ D ∣ x ^ 2 - N := by
  have hc : ((D.toNat : ℕ) : ℤ) = D := by omega
  have := C21_sqrts_mod_n rnd N D.toNat (by omega) fac hf r h
  rw [hc] at this
  exact this

private theorem two_le {D u v : ℤ} (h : pellFundamentalSolution D = some (.ok (u, v))) : 2 ≤ D := by
  by_contra hc
  have : D ≤ 0 ∨ (∃ k : ℤ, k ^ 2 = D) ∨ ((1 : ℤ) ≠ 1 ∧ (1 : ℤ) ≠ -1) := by
    rcases Int.lt_or_le 0 D with h0 | h0
    · exact Or.inr (Or.inl ⟨1, by omega⟩)
    · exact Or.inl h0
  rw [C39_pell_error D 1 this] at h
  simp at h

/-- Every listed pair solves the equation, for all `D` and `N`, whatever the floating point bound is. -/
theorem C95_minimal_sound (rnd : ℕ → ℕ → ℤ) (fac : List (ℕ × ℕ)) (fb : ℤ → ℤ) (D N : ℤ) (hf : FactorsTo fac D.toNat)
    (L : List (ℤ × ℤ)) (h : minimalPositiveSolutions rnd fac fb D N = some (.ok L)) :
    ∀ s ∈ L, s.1 ^ 2 - D * s.2 ^ 2 = N := by
  rw [minimalPositiveSolutions] at h
  rcases hp : pellFundamentalSolution D 1 with - | e | ⟨u, v⟩
  · rw [hp] at h; exact absurd h (by simp)
  · rw [hp] at h; exact absurd h (by simp)
  rw [hp] at h
  dsimp only at h
  have hn : u * u - D * v * v = 1 := by
    rw [← (C39_pell_sound D 1 u v hp).1]; ring
  have hD := two_le hp
  have key : ∀ s ∈ L, s.1 * s.1 - D * s.2 * s.2 = N := by
    by_cases h1 : N = 1
    · rw [if_pos h1] at h
      cases h
      intro s hs
      rw [List.mem_singleton] at hs
      rw [hs, h1]; exact hn
    · rw [if_neg h1] at h
      rcases hr : Zn.sqrtsModN rnd N fac with - | r
      · rw [hr] at h; exact absurd h (by simp)
      obtain ⟨R, rfl, hR, hmem⟩ := residues_spec hD hf hr
      rw [hr] at h
      dsimp only at h
      rcases hfs : fundamentalSolutions D N (R.flatMap (fun r =>
          progression r (if N > 0 then fb ((u + 1) * N) + 1 else fb ((u - 1) * (-N)) + 1) D)) with e | l
      · rw [hfs] at h; exact absurd h (by simp)
      · rw [hfs] at h
        simp only [Option.some.injEq, Except.ok.injEq] at h
        intro s hs
        rw [← h, (pySort_perm _ _).mem_iff, List.mem_map] at hs
        obtain ⟨t, ht, rfl⟩ := hs
        exact minimalOf_sound hn (fundamentalSolutions_sound (by omega) _
          (fun x hx => (((trials (by omega) _ hR hmem).2 x).1 hx).2.2) hfs t ht)
  intro s hs
  rw [← key s hs]; ring

/-- Every yielded pair solves the equation. -/
theorem C95_generator_sound (rnd : ℕ → ℕ → ℤ) (fac : List (ℕ × ℕ)) (fb : ℤ → ℤ) (D N B : ℤ) (hf : FactorsTo fac D.toNat)
    (L : List (ℤ × ℤ)) (h : solutionGenerator rnd fac fb D N B = some (.ok L)) :
    ∀ s ∈ L, s.1 ^ 2 - D * s.2 ^ 2 = N := by
  rw [solutionGenerator] at h
  rcases hp : pellFundamentalSolution D 1 with - | e | ⟨u, v⟩
  · rw [hp] at h; exact absurd h (by simp)
  · rw [hp] at h; exact absurd h (by simp)
  rw [hp] at h
  dsimp only at h
  rcases hm : minimalPositiveSolutions rnd fac fb D N with - | e | M
  · rw [hm] at h; exact absurd h (by simp)
  · rw [hm] at h; exact absurd h (by simp)
  rw [hm] at h
  dsimp only at h
  rw [Option.map_eq_some_iff] at h
  obtain ⟨l, hl, he⟩ := h
  cases he
  have hn : u * u - D * v * v = 1 := by
    rw [← (C39_pell_sound D 1 u v hp).1]; ring
  intro s hs
  have := chains_sound (N := N) hn B M L hl (fun t ht => by
    rw [← C95_minimal_sound rnd fac fb D N hf M hm t ht]; ring) s hs
  rw [← this]; ring

/-- What the theorems below need of the arguments. -/
structure PellInput (rnd : ℕ → ℕ → ℤ) (fac : List (ℕ × ℕ)) (fb : ℤ → ℤ) (D N : ℤ) : Prop where
  hd : 0 < D
  hns : ∀ k : ℤ, k ^ 2 ≠ D
  hroot : D < 4503599761588224 ∨ 2 ^ 60 < D ∨ ∀ r : ℕ, integerSqrt D = .ok r → (r : ℤ) ^ 2 ≤ D
  hf : FactorsTo fac D.toNat
  hrnd : ∀ pe ∈ fac, pe.1 % 8 = 1 → ∃ i, ¬ IsSquare ((rnd pe.1 i : ℤ) : ZMod pe.1)
  hfb : ∀ u v K : ℤ, pellFundamentalSolution D = some (.ok (u, v)) → (K = if N > 0 then (u + 1) * N else (u - 1) * (-N)) →
    0 ≤ fb K ∧ 2 * (fb K) ^ 2 ≤ K ∧ K < 2 * (fb K + 1) ^ 2

private theorem minimal_base {rnd : ℕ → ℕ → ℤ} {fac : List (ℕ × ℕ)} {fb : ℤ → ℤ} {D N : ℤ} (h : PellInput rnd fac fb D N)
    (hN : N ≠ 0) (hnsq : N = 1 ∨ ∀ k : ℤ, k ^ 2 ≠ N) :
    ∃ u v, pellFundamentalSolution D = some (.ok (u, v)) ∧ PellClasses.Unit D u v ∧
      ∃ L, minimalPositiveSolutions rnd fac fb D N = some (.ok L) ∧ L.Nodup ∧
        L.Pairwise (fun a b => a.1 < b.1 ∨ (a.1 = b.1 ∧ a.2 ≤ b.2)) ∧
        ∀ s : ℤ × ℤ, s ∈ L ↔ Base D u v N s.1 s.2 := by
  obtain ⟨u, v, hp, hu, hv, hn, hleast⟩ := C39_pell_fundamental_partial D h.hd h.hns h.hroot
  have hD := two_le hp
  have hn' : u * u - D * v * v = 1 := by rw [← hn]; ring
  have hu1 : 1 < u := by
    by_contra hc
    have : u = 1 := by omega
    have h0 : 0 < D * v * v := by have := h.hd; positivity
    rw [this] at hn'
    omega
  have hU : PellClasses.Unit D u v := ⟨h.hd, hu1, hv, hn', fun a b ha hb hab => hleast a b ha hb (by rw [← hab]; ring)⟩
  refine ⟨u, v, hp, hU, ?_⟩
  rw [minimalPositiveSolutions, hp]
  dsimp only
  by_cases h1 : N = 1
  · subst h1
    refine ⟨[(u, v)], by rw [if_pos rfl], by simp, by simp, fun s => ?_⟩
    rw [List.mem_singleton, base_one hU]
  · rw [if_neg h1]
    obtain ⟨r, hr⟩ := C21_sqrts_mod_n_total rnd N D.toNat fac h.hf h.hrnd
    obtain ⟨R, rfl, hR, hmem⟩ := residues_spec hD h.hf hr
    rw [hr]
    dsimp only
    obtain ⟨t1, t2⟩ := trials (N := N) h.hd (if N > 0 then fb ((u + 1) * N) + 1 else fb ((u - 1) * (-N)) + 1) hR hmem
    obtain ⟨l, l1, l2, l3⟩ := fundamentalSolutions_spec h.hd hN _ t1 (fun x hx => ⟨((t2 x).1 hx).1, ((t2 x).1 hx).2.2⟩)
    rw [l1]
    have hsmall : ∀ x, 0 ≤ x → (x < (if N > 0 then fb ((u + 1) * N) + 1 else fb ((u - 1) * (-N)) + 1) ↔ PellClasses.Small u N x) := by
      intro x hx
      have hb := h.hfb u v _ hp rfl
      rw [PellClasses.Small]
      by_cases hpos : N > 0
      · rw [if_pos hpos] at hb ⊢
        rw [if_pos hpos]
        obtain ⟨b0, b1, b2⟩ := hb
        constructor
        · intro hlt; nlinarith
        · intro hle; nlinarith
      · rw [if_neg hpos] at hb ⊢
        rw [if_neg hpos]
        obtain ⟨b0, b1, b2⟩ := hb
        constructor
        · intro hlt; nlinarith
        · intro hle; nlinarith
    obtain ⟨m1, m2⟩ := minimal_spec hU hN (l := l) (by
        rcases hnsq with h2 | h2
        · exact absurd h2 h1
        · intro k hk; exact h2 k (by rw [← hk]; ring)) l2 (by
      intro s
      rw [l3]
      constructor
      · rintro ⟨x, hx, y, hS, hs⟩
        exact ⟨x, (hsmall x hS.hx).1 ((t2 x).1 hx).2.1, y, hS, hs⟩
      · rintro ⟨x, hx, y, hS, hs⟩
        refine ⟨x, (t2 x).2 ⟨hS.hx, (hsmall x hS.hx).2 hx, ?_⟩, y, hS, hs⟩
        exact ⟨y * y, by rw [← hS.norm]; ring⟩)
    refine ⟨_, rfl, ?_, ?_, fun s => ?_⟩
    · exact (pySort_perm _ _).nodup_iff.2 m1
    · refine (pairwise_pySort ?_ ?_ _).imp ?_
      · intro a b c hab hbc
        simp only [pairLe, decide_eq_true_eq] at hab hbc ⊢
        omega
      · intro a b
        simp only [pairLe, Bool.or_eq_true, decide_eq_true_eq]
        omega
      · intro a b hab
        simpa only [pairLe, decide_eq_true_eq] using hab
    · rw [(pySort_perm _ _).mem_iff, m2]

private theorem zsqrt_iterate {D u v : ℤ} (s : ℤ × ℤ) (k : ℕ) :
    (⟨((mulU D u v)^[k] s).1, ((mulU D u v)^[k] s).2⟩ : ℤ√D) = ⟨s.1, s.2⟩ * ⟨u, v⟩ ^ k := by
  induction k with
  | zero => rw [pow_zero, mul_one]; rfl
  | succ k ih =>
    rw [pow_succ, ← mul_assoc, ← ih, Function.iterate_succ_apply']
    ext
    · simp [mulU]; ring
    · simp [mulU]

private theorem zsqrt_iff {D u v : ℤ} (t s : ℤ × ℤ) (k : ℕ) :
    (⟨t.1, t.2⟩ : ℤ√D) = ⟨s.1, s.2⟩ * ⟨u, v⟩ ^ k ↔ t = (mulU D u v)^[k] s := by
  rw [← zsqrt_iterate, Zsqrtd.mk.injEq]
  exact ⟨fun h => Prod.ext h.1 h.2, fun h => by rw [h]; exact ⟨rfl, rfl⟩⟩

/-- The list is sorted, without repetition, consists of solutions with `0 ≤ x` and `0 < y`, and every such solution is in
exactly one way the product of a listed one and a power of the fundamental unit; so the listed ones are the least of their
classes.  Missing: squares `N` other than 1 (`C95_minimal_violation`), and what C39 lacks. -/
theorem C95_minimal_partial (rnd : ℕ → ℕ → ℤ) (fac : List (ℕ × ℕ)) (fb : ℤ → ℤ) (D N : ℤ) (h : PellInput rnd fac fb D N)
    (hN : N ≠ 0) (hnsq : N = 1 ∨ ∀ k : ℤ, k ^ 2 ≠ N) :
    ∃ u v, pellFundamentalSolution D = some (.ok (u, v)) ∧
      ∃ L, minimalPositiveSolutions rnd fac fb D N = some (.ok L) ∧ L.Nodup ∧
        L.Pairwise (fun a b => a.1 < b.1 ∨ (a.1 = b.1 ∧ a.2 ≤ b.2)) ∧
        (∀ s ∈ L, 0 ≤ s.1 ∧ 0 < s.2 ∧ s.1 ^ 2 - D * s.2 ^ 2 = N) ∧
        ∀ x y : ℤ, 0 ≤ x → 0 < y → x ^ 2 - D * y ^ 2 = N →
          ∃ s ∈ L, s.1 ≤ x ∧ s.2 ≤ y ∧ ∃ k : ℕ, (⟨x, y⟩ : ℤ√D) = ⟨s.1, s.2⟩ * ⟨u, v⟩ ^ k ∧
            ∀ s' ∈ L, ∀ k' : ℕ, (⟨x, y⟩ : ℤ√D) = ⟨s'.1, s'.2⟩ * ⟨u, v⟩ ^ k' → s' = s ∧ k' = k := by
  obtain ⟨u, v, hp, hU, L, hL, hnd, hsort, hmem⟩ := minimal_base h hN hnsq
  refine ⟨u, v, hp, L, hL, hnd, hsort, ?_, ?_⟩
  · intro s hs
    have hb := ((hmem s).1 hs).1
    exact ⟨hb.hx, hb.hy, by rw [← hb.norm]; ring⟩
  · intro x y hx hy he
    obtain ⟨b, hb, k, hk⟩ := exists_base hU _ x y le_rfl (⟨hx, hy, by rw [← he]; ring⟩ : Sol D N x y)
    have hmono : ∀ k, b.1 ≤ ((mulU D u v)^[k] b).1 ∧ b.2 ≤ ((mulU D u v)^[k] b).2 := by
      intro k
      induction k with
      | zero => exact ⟨le_rfl, le_rfl⟩
      | succ k ih =>
        rw [Function.iterate_succ_apply']
        have := mulU_lt hU (sol_iterate hU hb.1 k)
        omega
    have hm := hmono k
    rw [← hk] at hm
    refine ⟨b, (hmem b).2 hb, hm.1, hm.2, k, (zsqrt_iff (x, y) b k).2 hk, ?_⟩
    intro s' hs' k' he'
    have he'' := (zsqrt_iff (x, y) s' k').1 he'
    obtain ⟨e1, e2⟩ := base_unique hU ((hmem s').1 hs') hb k' k (he''.symm.trans hk)
    exact ⟨e1, e2⟩

/-- The generator ends and yields every solution with `0 ≤ x ≤ B` and `0 < y ≤ B` exactly once, and nothing else. -/
theorem C95_generator_partial (rnd : ℕ → ℕ → ℤ) (fac : List (ℕ × ℕ)) (fb : ℤ → ℤ) (D N B : ℤ) (h : PellInput rnd fac fb D N)
    (hN : N ≠ 0) (hnsq : N = 1 ∨ ∀ k : ℤ, k ^ 2 ≠ N) :
    ∃ out, solutionGenerator rnd fac fb D N B = some (.ok out) ∧ out.Nodup ∧
      ∀ x y : ℤ, (x, y) ∈ out ↔ 0 ≤ x ∧ x ≤ B ∧ 0 < y ∧ y ≤ B ∧ x ^ 2 - D * y ^ 2 = N := by
  obtain ⟨u, v, hp, hU, L, hL, hnd, -, hmem⟩ := minimal_base h hN hnsq
  obtain ⟨l, l1, l2, l3⟩ := chains_spec hU B L hnd (fun s hs => (hmem s).1 hs)
  refine ⟨l, ?_, l2, fun x y => ?_⟩
  · rw [solutionGenerator, hp]
    dsimp only
    rw [hL]
    dsimp only
    rw [l1]
    rfl
  · rw [l3]
    constructor
    · rintro ⟨h1, h2, s, hs, k, hk⟩
      have hS := sol_iterate hU ((hmem s).1 hs).1 k
      rw [← hk] at hS
      exact ⟨hS.hx, h1, hS.hy, h2, by rw [← hS.norm]; ring⟩
    · rintro ⟨h1, h2, h3, h4, h5⟩
      obtain ⟨b, hb, k, hk⟩ := exists_base hU _ x y le_rfl (⟨h1, h3, by rw [← h5]; ring⟩ : Sol D N x y)
      exact ⟨h2, h4, b, (hmem b).2 hb, k, hk⟩

private theorem pell_two : pellFundamentalSolution 2 = some (.ok (3, 2)) := by
  have hc : quadraticIrrational 2 = some (.ok ⟨1, [1], [2]⟩) := by
    rw [quadraticIrrational, if_pos ⟨rfl, rfl⟩, initSqrt, show integerSqrt 2 = .ok 1 by decide +kernel]
    dsimp only
    rw [if_neg (by decide), sqrtLoop.eq_def, if_neg (by decide)]
    dsimp only
    rw [if_neg (by decide), sqrtLoop.eq_def, if_neg (by decide)]
    dsimp only
    rw [if_pos (by decide)]
    decide +kernel
  rw [pellFundamentalSolution, if_neg (by decide), show Classification.isSquare 2 = .ok none by decide +kernel]
  dsimp only
  rw [if_neg (by decide), hc]
  dsimp only
  rw [if_neg (by decide), searchConvergents_spec _ _ _ 1 0 (by decide +kernel) (by decide +kernel)]
  decide +kernel

/-- For the square `N = 4` and `D = 2` the list is empty, although `6^2 - 2 * 4^2 = 4`: the solution `(2, 0)` is discarded
with its whole class. -/
theorem C95_minimal_violation :
    minimalPositiveSolutions (fun _ _ => 3) [(2, 1)] (fun K => if K = 16 then 2 else 0) 2 4 = some (.ok []) ∧
      solutionGenerator (fun _ _ => 3) [(2, 1)] (fun K => if K = 16 then 2 else 0) 2 4 100 = some (.ok []) ∧
      (6 : ℤ) ^ 2 - 2 * 4 ^ 2 = 4 := by
  have h1 : minimalPositiveSolutions (fun _ _ => 3) [(2, 1)] (fun K => if K = 16 then 2 else 0) 2 4 = some (.ok []) := by
    rw [minimalPositiveSolutions, pell_two]
    decide +kernel
  refine ⟨h1, ?_, by norm_num⟩
  rw [solutionGenerator, pell_two]
  dsimp only
  rw [h1]
  rfl

private theorem pellInput_two (N b : ℤ) (hb : 0 ≤ b) (K : ℤ) (hK : K = if N > 0 then 4 * N else 2 * (-N))
    (h1 : 2 * b ^ 2 ≤ K) (h2 : K < 2 * (b + 1) ^ 2) :
    PellInput (fun _ _ => 3) [(2, 1)] (fun k => if k = K then b else 0) 2 N where
  hd := by norm_num
  hns := by
    intro k hk
    have : k < 2 := by nlinarith
    have : -2 < k := by nlinarith
    interval_cases k <;> simp at hk
  hroot := Or.inl (by norm_num)
  hf := ⟨⟨by decide, by simpa using Nat.prime_two⟩, by simp, by decide⟩
  hrnd := by simp
  hfb := by
    intro u v k hp hk
    rw [pell_two] at hp
    simp only [Option.some.injEq, Except.ok.injEq, Prod.mk.injEq] at hp
    obtain ⟨rfl, rfl⟩ := hp
    have : k = K := by rw [hk, hK]; norm_num
    rw [if_pos this, this]
    exact ⟨hb, h1, h2⟩

/-- The equation `x² - 2 y² = 7` has two classes; its solutions up to 100. -/
example : minimalPositiveSolutions (fun _ _ => 3) [(2, 1)] (fun K => if K = 28 then 3 else 0) 2 7 =
    some (.ok [(3, 1), (5, 3)]) := by
  rw [minimalPositiveSolutions, pell_two]
  decide +kernel

example : ∃ out, solutionGenerator (fun _ _ => 3) [(2, 1)] (fun K => if K = 28 then 3 else 0) 2 7 100 = some (.ok out) ∧
    out.Nodup ∧ (75, 53) ∈ out ∧ (27, 19) ∈ out ∧ (3, 1) ∈ out := by
  obtain ⟨out, h1, h2, h3⟩ := C95_generator_partial _ _ _ 2 7 100 (pellInput_two 7 3 (by norm_num) 28 (by norm_num)
    (by norm_num) (by norm_num)) (by norm_num) (Or.inr (by
      intro k hk
      have : k < 3 := by nlinarith
      have : -3 < k := by nlinarith
      interval_cases k <;> simp at hk))
  exact ⟨out, h1, h2, (h3 _ _).2 (by norm_num), (h3 _ _).2 (by norm_num), (h3 _ _).2 (by norm_num)⟩

/-- For `N = -2` the minimal solution is `(0, 1)`. -/
example : minimalPositiveSolutions (fun _ _ => 3) [(2, 1)] (fun K => if K = 4 then 1 else 0) 2 (-2) =
    some (.ok [(0, 1)]) ∧ PellInput (fun _ _ => 3) [(2, 1)] (fun K => if K = 4 then 1 else 0) 2 (-2) := by
  constructor
  · rw [minimalPositiveSolutions, pell_two]
    decide +kernel
  · exact pellInput_two (-2) 1 (by norm_num) 4 (by norm_num) (by norm_num) (by norm_num)

/-- For `D` negative or a square both functions raise. -/
theorem C95_error (rnd : ℕ → ℕ → ℤ) (fac : List (ℕ × ℕ)) (fb : ℤ → ℤ) (D N B : ℤ) (h : D ≤ 0 ∨ ∃ k : ℤ, k ^ 2 = D) :
    minimalPositiveSolutions rnd fac fb D N = some (.error .valueError) ∧
      solutionGenerator rnd fac fb D N B = some (.error .valueError) := by
  have he := C39_pell_error D 1 (by rcases h with h | h
                                    · exact Or.inl h
                                    · exact Or.inr (Or.inl h))
  constructor
  · rw [minimalPositiveSolutions, he]
  · rw [solutionGenerator, he]

example : minimalPositiveSolutions (fun _ _ => 3) [(3, 2)] (fun _ => 0) 9 7 = some (.error .valueError) :=
  (C95_error _ _ _ 9 7 10 (Or.inr ⟨3, by norm_num⟩)).1

end Rosemary.Props
