import Verif.Props.PellSmall
import Verif.Props.Farey

/-!
# The functions about Pell's equation fit together (C188)

All theorems are about numbers `D` at which `integer_sqrt` is right (C09), in particular all below 4503599761588224.
-/

namespace Rosemary.Props

open Rosemary.PellSmall Rosemary.Pell Rosemary.ContinuedFractions Rosemary.Core Rosemary.Farey

/-- The number `D` is positive, no square, and `integer_sqrt(D)` is right. -/
structure PellNumber (D : ℤ) : Prop where
  hd : 0 < D
  hns : ∀ k : ℤ, k ^ 2 ≠ D
  hroot : D < 4503599761588224 ∨ 2 ^ 60 < D ∨ ∀ r : ℕ, integerSqrt D = .ok r → (r : ℤ) ^ 2 ≤ D

theorem PellNumber.two_le {D : ℤ} (h : PellNumber D) : 2 ≤ D := by
  have h1 := h.hd
  have h2 := h.hns 1
  omega

/-- The pair returned by `pell_fundamental_solution` is a fundamental solution in the sense of Mathlib. -/
theorem PellNumber.fundamental {D : ℤ} (h : PellNumber D) : ∃ (u v : ℤ) (hn : u ^ 2 - D * v ^ 2 = 1),
    pellFundamentalSolution D = some (.ok (u, v)) ∧ 0 < u ∧ 0 < v ∧ Pell.IsFundamental (Pell.Solution₁.mk u v hn) := by
  obtain ⟨u, v, hp, hu, hv, hn, hleast⟩ := C39_pell_fundamental_partial D h.hd h.hns h.hroot
  refine ⟨u, v, hn, hp, hu, hv, ?_, hv, fun {b} hb => ?_⟩
  · rw [Pell.Solution₁.x_mk]
    have := mul_pos h.hd (pow_pos hv 2)
    nlinarith
  · have hy := Pell.Solution₁.y_ne_zero_of_one_lt_x hb
    exact (hleast b.x |b.y| (by omega) (abs_pos.2 hy) (by rw [sq_abs]; exact b.prop)).1

theorem coe_pow_mk {D u v : ℤ} (hn : u ^ 2 - D * v ^ 2 = 1) (k : ℕ) :
    (⟨(Pell.Solution₁.mk u v hn ^ k).x, (Pell.Solution₁.mk u v hn ^ k).y⟩ : ℤ√D) = (⟨u, v⟩ : ℤ√D) ^ k := by
  have : ((Pell.Solution₁.mk u v hn ^ k : Pell.Solution₁ D) : ℤ√D) = (⟨u, v⟩ : ℤ√D) ^ k := by
    rw [← Pell.Solution₁.coe_mk u v hn]; rfl
  rw [← this]; rfl

/-- The positive solutions of `x² - Dy² = 1` are the powers of the returned one. -/
theorem PellNumber.powers {D : ℤ} (h : PellNumber D) {u v : ℤ} (hp : pellFundamentalSolution D = some (.ok (u, v))) (x y : ℤ) :
    (0 < x ∧ 0 < y ∧ x ^ 2 - D * y ^ 2 = 1) ↔ ∃ k : ℕ, (⟨x, y⟩ : ℤ√D) = ⟨u, v⟩ ^ (k + 1) := by
  obtain ⟨u', v', hn, hp', hu, hv, hf⟩ := h.fundamental
  rw [hp] at hp'
  simp only [Option.some.injEq, Except.ok.injEq, Prod.mk.injEq] at hp'
  obtain ⟨rfl, rfl⟩ := hp'
  constructor
  · rintro ⟨hx, hy, he⟩
    obtain ⟨n, hn'⟩ := hf.eq_pow_of_nonneg (a := Pell.Solution₁.mk x y he) hx hy.le
    cases n with
    | zero =>
      have := congrArg Pell.Solution₁.y hn'
      rw [pow_zero, Pell.Solution₁.y_mk, Pell.Solution₁.y_one] at this
      omega
    | succ k =>
      refine ⟨k, ?_⟩
      rw [← coe_pow_mk hn, ← hn', Pell.Solution₁.x_mk, Pell.Solution₁.y_mk]
  · rintro ⟨k, hk⟩
    rw [← coe_pow_mk hn] at hk
    rw [Zsqrtd.mk.injEq] at hk
    rw [hk.1, hk.2]
    exact ⟨Pell.Solution₁.x_pow_pos (a := Pell.Solution₁.mk u v hn) hu _,
      Pell.Solution₁.y_pow_succ_pos (a := Pell.Solution₁.mk u v hn) hu hv k, Pell.Solution₁.prop _⟩

/-- C188: if `pell_fundamental_solution(D, -1)` returns `(a, b)`, then `pell_fundamental_solution(D)` returns the square
`(a + b√D)²`. -/
theorem C188_negative_unit (D : ℤ) (h : PellNumber D) (a b : ℤ) (hm : pellFundamentalSolution D (-1) = some (.ok (a, b))) :
    pellFundamentalSolution D = some (.ok (a ^ 2 + D * b ^ 2, 2 * a * b)) := by
  obtain ⟨u, v, hp, hu, hv, huv, hleast⟩ := C39_pell_fundamental_partial D h.hd h.hns h.hroot
  obtain ⟨u', v', hn, hp', -, -, hf⟩ := h.fundamental
  rw [hp] at hp'
  simp only [Option.some.injEq, Except.ok.injEq, Prod.mk.injEq] at hp'
  obtain ⟨rfl, rfl⟩ := hp'
  rcases C39_pell_negative_partial D h.hd h.hns h.hroot with ⟨a', b', h1, ha, hb, hab, hmin⟩ | ⟨h1, -⟩
  swap
  · rw [hm] at h1; simp at h1
  rw [hm] at h1
  simp only [Option.some.injEq, Except.ok.injEq, Prod.mk.injEq] at h1
  obtain ⟨rfl, rfl⟩ := h1
  have hD := h.hd
  have he : (a ^ 2 + D * b ^ 2) ^ 2 - D * (2 * a * b) ^ 2 = 1 := by
    have : (a ^ 2 + D * b ^ 2) ^ 2 - D * (2 * a * b) ^ 2 = (a ^ 2 - D * b ^ 2) ^ 2 := by ring
    rw [this, hab]; norm_num
  have hX : 0 < a ^ 2 + D * b ^ 2 := by positivity
  have hY : 0 < 2 * a * b := by positivity
  obtain ⟨l1, l2⟩ := hleast _ _ hX hY he
  obtain ⟨n, hn'⟩ := hf.eq_pow_of_nonneg (a := Pell.Solution₁.mk _ _ he) hX hY.le
  rcases Nat.even_or_odd' n with ⟨j, rfl | rfl⟩
  · -- an even power would make `a + b√D` a solution for 1
    exfalso
    set s := Pell.Solution₁.mk u v hn ^ j with hs
    have hx := congrArg Pell.Solution₁.x hn'
    rw [Pell.Solution₁.x_mk, two_mul j, pow_add, ← hs, Pell.Solution₁.x_mul] at hx
    have hsp := s.prop
    have hs0 : 0 < s.x := Pell.Solution₁.x_pow_pos (a := Pell.Solution₁.mk u v hn) hu _
    have h3 : s.x ^ 2 = a ^ 2 + 1 := by nlinarith
    have h4 : a < s.x := by nlinarith
    nlinarith
  · set s := Pell.Solution₁.mk u v hn ^ j with hs
    have hU : Pell.Solution₁.mk u v hn = Pell.Solution₁.mk _ _ he * s⁻¹ * s⁻¹ := by
      rw [hn', hs]; group
    have hx := congrArg Pell.Solution₁.x hU
    have hy := congrArg Pell.Solution₁.y hU
    simp only [Pell.Solution₁.x_mul, Pell.Solution₁.y_mul, Pell.Solution₁.x_inv, Pell.Solution₁.y_inv, Pell.Solution₁.x_mk,
      Pell.Solution₁.y_mk] at hx hy
    have hsp := s.prop
    generalize s.x = p at hx hy hsp
    generalize s.y = q at hx hy hsp
    have e1 : u = (a * p - D * b * q) ^ 2 + D * (b * p - a * q) ^ 2 := by rw [hx]; ring
    have e2 : v = 2 * (a * p - D * b * q) * (b * p - a * q) := by rw [hy]; ring
    have e3 : (a * p - D * b * q) ^ 2 - D * (b * p - a * q) ^ 2 = -1 := by
      have : (a * p - D * b * q) ^ 2 - D * (b * p - a * q) ^ 2 = (a ^ 2 - D * b ^ 2) * (p ^ 2 - D * q ^ 2) := by ring
      rw [this, hab, hsp]; norm_num
    generalize a * p - D * b * q = P at e1 e2 e3
    generalize b * p - a * q = Q at e1 e2 e3
    have hP : P ≠ 0 := by rintro rfl; simp at e2; omega
    have hQ : Q ≠ 0 := by rintro rfl; simp at e2; omega
    obtain ⟨m1, m2⟩ := hmin |P| |Q| (abs_pos.2 hP) (abs_pos.2 hQ) (by rw [sq_abs, sq_abs]; exact e3)
    have f1 : a ^ 2 ≤ P ^ 2 := by rw [← sq_abs P]; exact pow_le_pow_left₀ ha.le m1 2
    have f2 : b ^ 2 ≤ Q ^ 2 := by rw [← sq_abs Q]; exact pow_le_pow_left₀ hb.le m2 2
    have g1 : u = a ^ 2 + D * b ^ 2 := le_antisymm l1 (by rw [e1]; nlinarith)
    have g2 : v = 2 * a * b := by
      refine le_antisymm l2 ?_
      have : D * v ^ 2 = D * (2 * a * b) ^ 2 := by rw [← g1] at he; linarith
      have : v ^ 2 = (2 * a * b) ^ 2 := mul_left_cancel₀ hD.ne' this
      rw [sq_eq_sq₀ hv.le hY.le] at this
      exact this.ge
    rw [hp, g1, g2]

/-- C188: for `N² < D` the first pair that `pell_small` yields is the one `farey` returns; `farey` runs forever exactly if
`pell_small` yields nothing. -/
theorem C188_farey_first (D N : ℤ) (h : PellNumber D) (hN : N ^ 2 < D) :
    ∃ out, pellSmall D N = some (.ok out) ∧ (∀ k s l, out k = s :: l → farey D N = some s) ∧
      ((∀ k, out k = []) ↔ farey D N = none) := by
  obtain ⟨out, h1, h2, h3⟩ := C115_pell_small_partial D N h.hd h.hns hN h.hroot
  have hD := h.hd
  have hpre : ∀ j i, out j <+: out (j + i) := by
    intro j i
    induction i with
    | zero => exact List.prefix_rfl
    | succ i ih => exact ih.trans (h2 _).1
  rcases C114_farey_partial D N h.hd (by
      rcases lt_or_ge 0 N with h0 | h0
      · exact Or.inl ⟨h0, by omega⟩
      · exact Or.inr ⟨h0, hN.le⟩) with ⟨a, b, f1, fa, fb, fc, fe, fmin⟩ | ⟨f1, f2⟩
  · obtain ⟨i, hi⟩ := (h3 a b).2 ⟨fa, fb, fc, fe⟩
    refine ⟨out, h1, fun k s l hk => ?_, ⟨fun hall => ?_, fun hnone => ?_⟩⟩
    · obtain ⟨s1, s2, s3, s4⟩ := (h3 s.1 s.2).1 ⟨k, by rw [hk]; exact List.mem_cons_self⟩
      obtain ⟨m1, m2⟩ := fmin _ _ s1 s2 s3 s4
      have hle : s.1 ≤ a := by
        obtain ⟨t, ht⟩ := hpre k i
        have hmem : (a, b) ∈ out (k + i) := by
          rw [Nat.add_comm]; exact (hpre i k).subset hi
        have hpw := (h2 (k + i)).2
        rw [← ht, hk] at hmem hpw
        rw [List.cons_append, List.pairwise_cons] at hpw
        rcases List.mem_cons.1 hmem with h5 | h5
        · rw [← h5]
        · exact (hpw.1 _ h5).le
      have e1 : a = s.1 := le_antisymm m1 hle
      have e2 : b = s.2 := by
        have : D * b ^ 2 = D * s.2 ^ 2 := by rw [e1] at fe; linarith
        have := mul_left_cancel₀ hD.ne' this
        rwa [sq_eq_sq₀ fb.le s2.le] at this
      rw [f1, e1, e2]
    · rw [hall i] at hi; simp at hi
    · rw [f1] at hnone; simp at hnone
  · have hall : ∀ k, out k = [] := by
      intro k
      rw [List.eq_nil_iff_forall_not_mem]
      intro s hs
      exact f2 ⟨s.1, s.2, (h3 s.1 s.2).1 ⟨k, hs⟩⟩
    exact ⟨out, h1, fun k s l hk => by rw [hall k] at hk; simp at hk, ⟨fun _ => f1, fun _ => hall⟩⟩

/-- C188: the pairs that `pell_small(D, 1)` yields are the powers of the one `pell_fundamental_solution(D)` returns. -/
theorem C188_powers (D : ℤ) (h : PellNumber D) :
    ∃ u v out, pellFundamentalSolution D = some (.ok (u, v)) ∧ pellSmall D 1 = some (.ok out) ∧
      ∀ x y, (∃ k, (x, y) ∈ out k) ↔ ∃ k : ℕ, (⟨x, y⟩ : ℤ√D) = ⟨u, v⟩ ^ (k + 1) := by
  obtain ⟨u, v, hn, hp, -, -, -⟩ := h.fundamental
  obtain ⟨out, h1, -, h3⟩ := C115_pell_small_partial D 1 h.hd h.hns (by have := h.two_le; omega) h.hroot
  refine ⟨u, v, out, hp, h1, fun x y => ?_⟩
  rw [h3, ← h.powers hp]
  refine ⟨fun ⟨a, b, _, c⟩ => ⟨a, b, c⟩, fun ⟨a, b, c⟩ => ⟨a, b, ⟨x, -D * y, by rw [← c]; ring⟩, c⟩⟩

/-- For `N² < D` no solution has `x = 0`: `Dy²` is too large. -/
theorem no_zero {D N y : ℤ} (hD : 0 < D) (hN : N ^ 2 < D) (hy : 0 < y) (he : 0 ^ 2 - D * y ^ 2 = N) : False := by
  have h1 : 1 ≤ y ^ 2 := by nlinarith
  have h2 : D * 1 ≤ D * y ^ 2 := mul_le_mul_of_nonneg_left h1 hD.le
  have h3 : D ≤ -N := by linarith
  nlinarith

/-- C188: for `N² < D`, `N = 1` or no square, the pairs without common divisor that `pell_solution_generator(D, N, B)` yields
are those up to `B` that `pell_small(D, N)` yields. -/
theorem C188_generator (rnd : ℕ → ℕ → ℤ) (fac : List (ℕ × ℕ)) (fb : ℤ → ℤ) (D N B : ℤ) (h : PellInput rnd fac fb D N)
    (hN0 : N ≠ 0) (hnsq : N = 1 ∨ ∀ k : ℤ, k ^ 2 ≠ N) (hN : N ^ 2 < D) :
    ∃ out gen, pellSmall D N = some (.ok out) ∧ solutionGenerator rnd fac fb D N B = some (.ok gen) ∧
      ∀ x y, ((x, y) ∈ gen ∧ IsCoprime x y) ↔ (∃ k, (x, y) ∈ out k) ∧ x ≤ B ∧ y ≤ B := by
  obtain ⟨out, h1, -, h3⟩ := C115_pell_small_partial D N h.hd h.hns hN h.hroot
  obtain ⟨gen, g1, -, g3⟩ := C95_generator_partial rnd fac fb D N B h hN0 hnsq
  refine ⟨out, gen, h1, g1, fun x y => ?_⟩
  rw [g3, h3]
  constructor
  · rintro ⟨⟨a1, a2, a3, a4, a5⟩, a6⟩
    refine ⟨⟨lt_of_le_of_ne a1 ?_, a3, a6, a5⟩, a2, a4⟩
    rintro rfl
    exact no_zero h.hd hN a3 a5
  · rintro ⟨⟨a1, a3, a6, a5⟩, a2, a4⟩
    exact ⟨⟨a1.le, a2, a3, a4, a5⟩, a6⟩

/-- C188: for `N² < D`, `N` no square, `_pell_small_minimal_positive_solutions` and `pell_minimal_positive_solutions` list the
same pairs. -/
theorem C188_minimal (rnd : ℕ → ℕ → ℤ) (fac : List (ℕ × ℕ)) (fb : ℤ → ℤ) (D N : ℤ) (h : PellInput rnd fac fb D N)
    (hN0 : N ≠ 0) (hnsq : ∀ k : ℤ, k ^ 2 ≠ N) (hN : N ^ 2 < D) :
    ∃ L L', minimalPositiveSolutions rnd fac fb D N = some (.ok L) ∧ pellSmallMinimal D N = some (.ok L') ∧ ∀ s, s ∈ L ↔ s ∈ L' := by
  obtain ⟨u, v, hp, L, h1, -, -, h2, h3⟩ := C95_minimal_partial rnd fac fb D N h hN0 (Or.inr hnsq)
  obtain ⟨u', v', L', hp', g1, g2, g3⟩ := C116_small_minimal_classes_partial D N h.hd h.hns hN0 hN h.hroot
  obtain ⟨u'', v'', L'', hp'', k1, -, k3⟩ := C116_small_minimal_partial D N h.hd h.hns hN0 hN h.hroot
  rw [hp] at hp' hp''
  simp only [Option.some.injEq, Except.ok.injEq, Prod.mk.injEq] at hp' hp''
  obtain ⟨rfl, rfl⟩ := hp'
  obtain ⟨rfl, rfl⟩ := hp''
  rw [g1] at k1
  simp only [Option.some.injEq, Except.ok.injEq] at k1
  subst k1
  have hD := h.hd
  have hcls : ∀ X Y : ℤ, 0 < X → 0 < Y → X ^ 2 - D * Y ^ 2 = N →
      ∃ s ∈ L', ∃ k : ℕ, (⟨X, Y⟩ : ℤ√D) = ⟨s.1, s.2⟩ * ⟨u, v⟩ ^ k := by
    intro X Y hX hY he
    rcases g2 X Y hX hY he with h5 | ⟨g, -, hg, -⟩
    · exact h5
    · exact absurd hg (hnsq g)
  refine ⟨L, L', h1, g1, fun s => ⟨fun hs => ?_, fun hs => ?_⟩⟩
  · obtain ⟨a1, a2, a3⟩ := h2 s hs
    have hpos : 0 < s.1 := by
      refine lt_of_le_of_ne a1 fun h0 => ?_
      rw [← h0] at a3
      exact no_zero h.hd hN a2 a3
    obtain ⟨t, ht, k, hk⟩ := hcls s.1 s.2 hpos a2 a3
    obtain ⟨t1, t2, t3, -⟩ := (k3 t.1 t.2).1 ht
    obtain ⟨s', hs', -, -, k', hk', -⟩ := h3 t.1 t.2 t1.le t2 t3
    obtain ⟨s₀, -, -, -, k₀, -, huniq⟩ := h3 s.1 s.2 a1 a2 a3
    obtain ⟨q1, q2⟩ := huniq s hs 0 (by simp)
    obtain ⟨r1, r2⟩ := huniq s' hs' (k' + k) (by rw [hk, hk', mul_assoc, ← pow_add])
    have : k = 0 := by omega
    subst this
    rw [pow_zero, mul_one, Zsqrtd.mk.injEq] at hk
    rw [Prod.ext hk.1 hk.2]; exact ht
  · obtain ⟨t1, t2, t3, -⟩ := (k3 s.1 s.2).1 hs
    obtain ⟨s', hs', -, -, k, hk, -⟩ := h3 s.1 s.2 t1.le t2 t3
    obtain ⟨a1, a2, a3⟩ := h2 s' hs'
    have hpos : 0 < s'.1 := by
      refine lt_of_le_of_ne a1 fun h0 => ?_
      rw [← h0] at a3
      exact no_zero h.hd hN a2 a3
    obtain ⟨t, ht, k', hk'⟩ := hcls s'.1 s'.2 hpos a2 a3
    obtain ⟨e1, e2⟩ := g3 s hs t ht (k' + k) (by rw [hk, hk', mul_assoc, ← pow_add])
    have : k = 0 := by omega
    subst this
    rw [pow_zero, mul_one, Zsqrtd.mk.injEq] at hk
    rw [Prod.ext hk.1 hk.2]; exact hs'

/-- C188: for `N = 1` they do not agree: `pell_minimal_positive_solutions` lists the fundamental solution and nothing else,
`_pell_small_minimal_positive_solutions` nothing at all. -/
theorem C188_minimal_one_violation (rnd : ℕ → ℕ → ℤ) (fac : List (ℕ × ℕ)) (fb : ℤ → ℤ) (D : ℤ) (h : PellNumber D) :
    ∃ u v, pellFundamentalSolution D = some (.ok (u, v)) ∧ minimalPositiveSolutions rnd fac fb D 1 = some (.ok [(u, v)]) ∧
      pellSmallMinimal D 1 = some (.ok []) := by
  obtain ⟨u, v, hp, hu, hv, huv, hleast⟩ := C39_pell_fundamental_partial D h.hd h.hns h.hroot
  obtain ⟨u', v', L, hp', h1, -, h3⟩ := C116_small_minimal_partial D 1 h.hd h.hns one_ne_zero (by have := h.two_le; omega) h.hroot
  rw [hp] at hp'
  simp only [Option.some.injEq, Except.ok.injEq, Prod.mk.injEq] at hp'
  obtain ⟨rfl, rfl⟩ := hp'
  refine ⟨u, v, hp, ?_, ?_⟩
  · rw [minimalPositiveSolutions, hp]
    dsimp only
    rw [if_pos rfl]
  · rw [h1]
    congr 2
    rw [List.eq_nil_iff_forall_not_mem]
    intro s hs
    obtain ⟨a1, a2, a3, a4⟩ := (h3 s.1 s.2).1 hs
    have hc : IsCoprime s.1 s.2 := ⟨s.1, -D * s.2, by rw [← a3]; ring⟩
    rw [Int.isCoprime_iff_gcd_eq_one.1 hc] at a4
    have := (hleast _ _ a1 a2 a3).1
    simp at a4
    omega

/-- C188: the solution returned for `D·m²` is the least power of the one for `D` whose second entry is a multiple of `m`. -/
theorem C188_multiple (D m : ℤ) (hm : 0 < m) (h : PellNumber D) (h' : PellNumber (D * m ^ 2)) :
    ∃ u v x y, pellFundamentalSolution D = some (.ok (u, v)) ∧ pellFundamentalSolution (D * m ^ 2) = some (.ok (x, y)) ∧
      ∃ k : ℕ, (⟨x, m * y⟩ : ℤ√D) = ⟨u, v⟩ ^ (k + 1) ∧ ∀ j : ℕ, m ∣ ((⟨u, v⟩ : ℤ√D) ^ (j + 1)).im → k ≤ j := by
  obtain ⟨u, v, hn, hp, hu, hv, hf⟩ := h.fundamental
  obtain ⟨x, y, hp', hx, hy, hxy, hleast⟩ := C39_pell_fundamental_partial (D * m ^ 2) h'.hd h'.hns h'.hroot
  obtain ⟨k, hk⟩ := (h.powers hp x (m * y)).1 ⟨hx, mul_pos hm hy, by rw [← hxy]; ring⟩
  refine ⟨u, v, x, y, hp, hp', k, hk, fun j ⟨z, hz⟩ => ?_⟩
  obtain ⟨j1, j2, j3⟩ := (h.powers hp ((⟨u, v⟩ : ℤ√D) ^ (j + 1)).re ((⟨u, v⟩ : ℤ√D) ^ (j + 1)).im).2 ⟨j, rfl⟩
  rw [hz] at j2 j3
  have hz0 : 0 < z := by by_contra hc; nlinarith
  have hle := (hleast _ z j1 hz0 (by rw [← j3]; ring)).2
  by_contra hlt
  push Not at hlt
  have hmono := (hf.zpow_y_lt_iff_lt (↑(j + 1) : ℤ) (↑(k + 1) : ℤ)).2 (by push_cast; omega)
  rw [zpow_natCast, zpow_natCast] at hmono
  have c1 := congrArg Zsqrtd.im (coe_pow_mk hn (j + 1))
  have c2 := congrArg Zsqrtd.im (coe_pow_mk hn (k + 1))
  rw [← hk] at c2
  rw [hz] at c1
  dsimp only at c1 c2
  rw [c1, c2] at hmono
  nlinarith

/-! ### Examples -/

theorem pellNumber_two : PellNumber 2 where
  hd := by norm_num
  hns k hk := by
    have h1 : k < 2 := by nlinarith
    have h2 : -2 < k := by nlinarith
    interval_cases k <;> omega
  hroot := Or.inl (by norm_num)

theorem pellNumber_fifty : PellNumber (2 * 5 ^ 2) where
  hd := by norm_num
  hns k hk := by
    have h1 : k < 8 := by nlinarith
    have h2 : -8 < k := by nlinarith
    interval_cases k <;> omega
  hroot := Or.inl (by norm_num)

/-- `(1 + √2)² = 3 + 2√2`. -/
theorem pell_two_value : pellFundamentalSolution 2 = some (.ok (3, 2)) := by
  obtain ⟨a, b, h1, h2, h3, h4, h5⟩ | ⟨-, h⟩ := C39_pell_negative_partial 2 (by norm_num) pellNumber_two.hns pellNumber_two.hroot
  · obtain ⟨h6, h7⟩ := h5 1 1 (by norm_num) (by norm_num) (by norm_num)
    obtain rfl : a = 1 := by omega
    obtain rfl : b = 1 := by omega
    exact C188_negative_unit 2 pellNumber_two 1 1 h1
  · exact absurd ⟨1, 1, by norm_num⟩ h

/-- `(3 + 2√2)³ = 99 + 70√2` is the first power with a multiple of 5, so the least solution for 50 is `(99, 14)`. -/
example : pellFundamentalSolution 50 = some (.ok (99, 14)) := by
  obtain ⟨u, v, x, y, h1, h2, k, h3, h4⟩ := C188_multiple 2 5 (by norm_num) pellNumber_two pellNumber_fifty
  rw [pell_two_value] at h1
  simp only [Option.some.injEq, Except.ok.injEq, Prod.mk.injEq] at h1
  obtain ⟨rfl, rfl⟩ := h1
  have hk : k ≤ 2 := h4 2 (by decide)
  have e1 : ((⟨3, 2⟩ : ℤ√2) ^ (0 + 1)) = ⟨3, 2⟩ := by decide
  have e2 : ((⟨3, 2⟩ : ℤ√2) ^ (1 + 1)) = ⟨17, 12⟩ := by decide
  have e3 : ((⟨3, 2⟩ : ℤ√2) ^ (2 + 1)) = ⟨99, 70⟩ := by decide
  have : k = 2 := by
    interval_cases k
    · rw [e1, Zsqrtd.mk.injEq] at h3; omega
    · rw [e2, Zsqrtd.mk.injEq] at h3; omega
    · rfl
  subst this
  rw [e3, Zsqrtd.mk.injEq] at h3
  obtain rfl : x = 99 := h3.1
  obtain rfl : y = 14 := by omega
  exact h2

/-- The hypotheses of `C188_generator` and `C188_minimal` hold for `x² - 7y² = 2`; the solutions `(3, 1)` and `(45, 17)` are
found by both functions. -/
example : ∃ out gen, pellSmall 7 2 = some (.ok out) ∧
    solutionGenerator (fun _ _ => 3) [(7, 1)] (fun _ => 3) 7 2 100 = some (.ok gen) ∧ (45, 17) ∈ gen ∧ ∃ k, (45, 17) ∈ out k := by
  have h7 : PellNumber 7 := ⟨by norm_num, fun k hk => by
    have h1 : k < 3 := by nlinarith
    have h2 : -3 < k := by nlinarith
    interval_cases k <;> omega, Or.inl (by norm_num)⟩
  have hnsq : ∀ k : ℤ, k ^ 2 ≠ 2 := pellNumber_two.hns
  have hin : PellInput (fun _ _ => 3) [(7, 1)] (fun _ => 3) 7 2 := {
    hd := h7.hd, hns := h7.hns, hroot := h7.hroot
    hf := ⟨⟨by decide, by simpa using (by norm_num : Nat.Prime 7)⟩, by simp, by decide⟩
    hrnd := by simp
    hfb := by
      intro u v K hp hK
      obtain ⟨x, y, hp', hx, hy, he, hl⟩ := C39_pell_fundamental_partial 7 h7.hd h7.hns h7.hroot
      rw [hp] at hp'
      simp only [Option.some.injEq, Except.ok.injEq, Prod.mk.injEq] at hp'
      obtain ⟨rfl, rfl⟩ := hp'
      obtain ⟨l1, l2⟩ := hl 8 3 (by norm_num) (by norm_num) (by norm_num)
      have hu : u = 8 := by
        interval_cases u <;> interval_cases v <;> omega
      subst hu
      rw [hK]; norm_num }
  obtain ⟨out, gen, h1, h2, h3⟩ := C188_generator _ _ _ 7 2 100 hin (by norm_num) (Or.inr hnsq) (by norm_num)
  obtain ⟨out', g1, -, g3⟩ := C115_pell_small_partial 7 2 h7.hd h7.hns (by norm_num) h7.hroot
  obtain rfl : out = out' := by rw [h1] at g1; simpa using g1
  have hk := (g3 45 17).2 ⟨by norm_num, by norm_num, ⟨-3, 8, by norm_num⟩, by norm_num⟩
  exact ⟨out, gen, h1, h2, ((h3 45 17).2 ⟨hk, by norm_num, by norm_num⟩).1, hk⟩

/-- `pell_small(7, 2)` and `farey(7, 2)` start with `(3, 1)`. -/
example : ∃ out k, pellSmall 7 2 = some (.ok out) ∧ (out k).head? = farey 7 2 ∧ farey 7 2 = some (3, 1) := by
  have h7 : PellNumber 7 := ⟨by norm_num, fun k hk => by
    have h1 : k < 3 := by nlinarith
    have h2 : -3 < k := by nlinarith
    interval_cases k <;> omega, Or.inl (by norm_num)⟩
  obtain ⟨out, h1, h2, h3⟩ := C188_farey_first 7 2 h7 (by norm_num)
  obtain ⟨out', g1, -, g3⟩ := C115_pell_small_partial 7 2 h7.hd h7.hns (by norm_num) h7.hroot
  obtain rfl : out = out' := by rw [h1] at g1; simpa using g1
  obtain ⟨k, hk⟩ := (g3 3 1).2 ⟨by norm_num, by norm_num, isCoprime_one_right, by norm_num⟩
  obtain ⟨s, l, hl⟩ := List.exists_cons_of_ne_nil (List.ne_nil_of_mem hk)
  have hs := h2 k s l hl
  obtain ⟨s1, s2, s3, s4⟩ := C114_farey_sound 7 2 s.1 s.2 hs
  rcases C114_farey_partial 7 2 (by norm_num) (Or.inl ⟨by norm_num, by norm_num⟩) with ⟨a, b, f1, fa, fb, -, fe, fmin⟩ | ⟨f1, -⟩
  · obtain ⟨m1, m2⟩ := fmin 3 1 (by norm_num) (by norm_num) isCoprime_one_right (by norm_num)
    obtain rfl : b = 1 := by omega
    obtain rfl : a = 3 := by nlinarith
    exact ⟨out, k, h1, by rw [hl, hs]; rfl, f1⟩
  · rw [hs] at f1; simp at f1

end Rosemary.Props
