import Verif.Props.SquareRoots
import Verif.Props.Core
import Mathlib.NumberTheory.LegendreSymbol.Basic
import Mathlib.NumberTheory.LegendreSymbol.JacobiSymbol
import Mathlib.GroupTheory.OrderOfElement

/-!
# C184: the functions on residues fit together
-/

namespace Rosemary.Props

open Rosemary.Core Rosemary.ArithFunctions Rosemary.Factorization Rosemary.Zn

theorem int_sorted_ext {l m : List Int} (hl : l.Pairwise (· < ·)) (hm : m.Pairwise (· < ·)) (h : ∀ x, x ∈ l ↔ x ∈ m) : l = m :=
  List.Perm.eq_of_pairwise (fun _ _ _ _ h1 h2 => absurd (h1.trans h2) (lt_irrefl _)) hl hm
    ((List.perm_ext_iff_of_nodup (hl.imp (fun h => h.ne)) (hm.imp (fun h => h.ne))).2 h)

/-- C184: `len(sqrts_mod_p(a, p)) == 1 + jacobi_symbol(a, p)` for an odd prime `p`. -/
theorem C184_legendre (rnd : Nat → Int) (a : Int) (p : Nat) (hp : p.Prime) (h2 : p ≠ 2) (r : Except PyErr (List Int))
    (h : sqrtsModP rnd a p = some r) : ∃ L j, r = .ok L ∧ jacobiSymbol a p = .ok j ∧ (L.length : Int) = 1 + j := by
  haveI : Fact p.Prime := ⟨hp⟩
  obtain ⟨L, rfl, hL, hm⟩ := C20_sqrts_mod_p rnd a p hp r h
  have hodd : Odd p := hp.odd_of_ne_two h2
  refine ⟨L, _, rfl, (C12_jacobi_symbol a p).1 hodd, ?_⟩
  rw [← jacobiSym.legendreSym.to_jacobiSym, add_comm, ← legendreSym.card_sqrts p h2 a]
  congr 1
  have hset : {x : ZMod p | x ^ 2 = a}.toFinset = L.toFinset.image (fun x : Int => (x : ZMod p)) := by
    ext x
    rw [Set.mem_toFinset, Set.mem_setOf_eq, Finset.mem_image]
    obtain ⟨y, hy0, hy1, rfl⟩ := exists_rep hp.pos x
    constructor
    · intro hx
      refine ⟨y, List.mem_toFinset.2 ((hm y).2 ⟨hy0, hy1, ?_⟩), rfl⟩
      rw [← cast_eq_iff_dvd]
      push_cast
      exact hx
    · rintro ⟨z, hz, hzy⟩
      obtain ⟨-, -, hz3⟩ := (hm z).1 (List.mem_toFinset.1 hz)
      rw [← cast_eq_iff_dvd] at hz3
      push_cast at hz3
      rw [← hzy, hz3]
  rw [hset, Finset.card_image_of_injOn, List.toFinset_card_of_nodup (hL.imp (fun h => h.ne))]
  intro x hx y hy hxy
  obtain ⟨x1, x2, -⟩ := (hm x).1 (List.mem_toFinset.1 hx)
  obtain ⟨y1, y2, -⟩ := (hm y).1 (List.mem_toFinset.1 hy)
  exact eq_of_cast x1 x2 y1 y2 hxy

/-- C184: `linear_congruence(a, 1, n)` is `[inverse_mod(a, n)]`, and the empty list if `inverse_mod` raises a ValueError. -/
theorem C184_inverse (a n : Int) (hn : 2 ≤ n) :
    (∃ b, inverseMod a n = .ok b ∧ linearCongruence a 1 n = .ok [b]) ∨
      (inverseMod a n = .error .valueError ∧ linearCongruence a 1 n = .ok []) := by
  obtain ⟨L, h1, h2, h3⟩ := (C19_linear_congruence a 1 n).2 hn
  by_cases hg : Int.gcd a n = 1
  · obtain ⟨b, b1, b2, b3, b4⟩ := (C05_inverse_mod a n).1 ⟨hn, hg⟩
    refine Or.inl ⟨b, b1, ?_⟩
    rw [h1, int_sorted_ext h2 (List.pairwise_singleton _ b) (fun x => ?_)]
    rw [h3, List.mem_singleton]
    constructor
    · rintro ⟨x1, x2, x3⟩
      have h4 : n ∣ a * (x - b) := by
        have := dvd_sub x3 b4
        rwa [show a * x - 1 - (a * b - 1) = a * (x - b) by ring] at this
      have h5 : n ∣ x - b := (Int.isCoprime_iff_gcd_eq_one.2 hg).symm.dvd_of_dvd_mul_left h4
      obtain ⟨c, hc⟩ := h5
      have : c = 0 := by
        by_contra h0
        rcases lt_or_gt_of_ne h0 with h | h
        · nlinarith
        · nlinarith
      rw [this, mul_zero] at hc
      omega
    · rintro rfl
      exact ⟨b2, b3, b4⟩
  · refine Or.inr ⟨(C05_inverse_mod a n).2 (fun h => hg h.2), ?_⟩
    have hnil : L = [] := List.eq_nil_iff_forall_not_mem.2 (fun x hx => ?_)
    · rw [h1, hnil]
    obtain ⟨-, -, c, hc⟩ := (h3 x).1 hx
    apply hg
    rw [← Int.isCoprime_iff_gcd_eq_one]
    exact ⟨x, -c, by linarith⟩

/-- C184: `sqrts_mod_n(a, n) == quadratic_congruence([1, 0, -a], n)`. -/
theorem C184_quadratic (rnd rnd' : Nat → Nat → Int) (a : Int) (n : Nat) (hn : 2 ≤ n) (fac : List (Nat × Nat)) (hf : FactorsTo fac n)
    (factorOf : Nat → List (Nat × Nat)) (hfo : ∀ m, 2 ≤ m → FactorsTo (factorOf m) m) (r r' : Except PyErr (List Int))
    (h : sqrtsModN rnd a fac = some r) (h' : quadraticCongruence rnd' 1 0 (-a) n fac factorOf = some r') : r = r' := by
  obtain ⟨L, rfl, hL, hm⟩ := C21_sqrts_mod_n rnd a n hn fac hf r h
  obtain ⟨L', rfl, hL', hm'⟩ := C22_quadratic_congruence rnd' 1 0 (-a) n hn fac hf factorOf hfo r' h'
  rw [int_sorted_ext hL hL' (fun x => ?_)]
  rw [hm, hm', show 1 * x ^ 2 + 0 * x + -a = x ^ 2 - a by ring]

/-- C184: `sqrts_mod_n(a, p) == sqrts_mod_p(a, p)` for a prime `p`, with whatever random choices. -/
theorem C184_prime_modulus (rnd : Nat → Nat → Int) (rnd' : Nat → Int) (a : Int) (p : Nat) (hp : p.Prime) (r r' : Except PyErr (List Int))
    (fac : List (Nat × Nat)) (hf : FactorsTo fac p) (h : sqrtsModN rnd a fac = some r) (h' : sqrtsModP rnd' a p = some r') : r = r' := by
  obtain ⟨L, rfl, hL, hm⟩ := C21_sqrts_mod_n rnd a p hp.two_le fac hf r h
  obtain ⟨L', rfl, hL', hm'⟩ := C20_sqrts_mod_p rnd' a p hp r' h'
  rw [int_sorted_ext hL hL' (fun x => (hm x).trans (hm' x).symm)]

/-- C184: `nth_roots_of_unity_mod_p(2, p) == sqrts_mod_p(1, p)` and `nth_roots_of_minus1_mod_p(2, p) == sqrts_mod_p(-1, p)`; the roots of unity
of degree `2*n` are those of degree `n` and the roots of -1 of degree `n`, with none in common if `p` is odd. -/
theorem C184_roots (rnd : Nat → Int) (p : Nat) (hp : p.Prime) (g : Int) (hg : GeneratesUnits g p) :
    (∀ r, sqrtsModP rnd 1 p = some r → r = .ok (nthRootsOfUnity 2 p g)) ∧
    (∀ r, sqrtsModP rnd (-1) p = some r → r = .ok (nthRootsOfMinus1 2 p g)) ∧
    ∀ n, 1 ≤ n → (∀ x, x ∈ nthRootsOfUnity (2 * n) p g ↔ x ∈ nthRootsOfUnity n p g ∨ x ∈ nthRootsOfMinus1 n p g) ∧
      (p ≠ 2 → ∀ x, ¬ (x ∈ nthRootsOfUnity n p g ∧ x ∈ nthRootsOfMinus1 n p g)) := by
  have hpi : Prime (p : Int) := Nat.prime_iff_prime_int.1 hp
  refine ⟨fun r h => ?_, fun r h => ?_, fun n hn => ⟨fun x => ?_, fun h2 x => ?_⟩⟩
  · obtain ⟨L, rfl, hL, hm⟩ := C20_sqrts_mod_p rnd 1 p hp r h
    obtain ⟨u1, u2⟩ := C24_nth_roots_of_unity 2 p hp (by norm_num) g hg
    rw [int_sorted_ext hL u1 (fun x => (hm x).trans (u2 x).symm)]
  · obtain ⟨L, rfl, hL, hm⟩ := C20_sqrts_mod_p rnd (-1) p hp r h
    obtain ⟨u1, u2⟩ := C24_nth_roots_of_minus1 2 p hp (by norm_num) g hg
    rw [int_sorted_ext hL u1 (fun x => by rw [hm, u2, sub_neg_eq_add])]
  · rw [(C24_nth_roots_of_unity (2 * n) p hp (by omega) g hg).2, (C24_nth_roots_of_unity n p hp hn g hg).2,
      (C24_nth_roots_of_minus1 n p hp hn g hg).2, show x ^ (2 * n) - 1 = (x ^ n - 1) * (x ^ n + 1) by ring, hpi.dvd_mul]
    tauto
  · rw [(C24_nth_roots_of_unity n p hp hn g hg).2, (C24_nth_roots_of_minus1 n p hp hn g hg).2]
    rintro ⟨⟨-, -, h3⟩, -, -, h4⟩
    have h5 : (p : Int) ∣ 2 := by
      have := dvd_sub h4 h3
      rwa [show x ^ n + 1 - (x ^ n - 1) = 2 by ring] at this
    have h6 : p ∣ 2 := by exact_mod_cast h5
    exact h2 ((Nat.prime_dvd_prime_iff_eq hp Nat.prime_two).1 h6)

/-- C184: `nth_roots_of_unity_mod_p(n, p)` lists the numbers in `range(p)` whose multiplicative order divides `n`. -/
theorem C184_orders (p : Nat) (hp : p.Prime) (g : Int) (hg : GeneratesUnits g p) (phiFac : List (Nat × Nat))
    (hf : FactorsTo phiFac p.totient) (n : Nat) (hn : 1 ≤ n) (x : Int) :
    x ∈ nthRootsOfUnity n p g ↔ 0 ≤ x ∧ x < p ∧ ∃ k, multiplicativeOrder x p phiFac = .ok (some k) ∧ k ∣ n := by
  rw [(C24_nth_roots_of_unity n p hp hn g hg).2]
  refine and_congr_right (fun _ => and_congr_right (fun _ => ?_))
  have hdvd : ∀ k : Nat, (p : Int) ∣ x ^ k - 1 ↔ (x : ZMod p) ^ k = 1 := by
    intro k; rw [← cast_eq_iff_dvd]; push_cast; rfl
  have hord : ∀ k, 1 ≤ k → (p : Int) ∣ x ^ k - 1 → (∀ j : Nat, 1 ≤ j → (p : Int) ∣ x ^ j - 1 → k ≤ j) →
      ∀ m : Nat, (p : Int) ∣ x ^ m - 1 ↔ k ∣ m := by
    intro k k1 k2 k3 m
    have : orderOf (x : ZMod p) = k := by
      rw [orderOf_eq_iff k1]
      refine ⟨(hdvd k).1 k2, fun j hj hj' hc => ?_⟩
      have := k3 j hj' ((hdvd j).2 hc)
      omega
    rw [hdvd, ← this, orderOf_dvd_iff_pow_eq_one]
  constructor
  · intro h
    have hgcd : Int.gcd x p = 1 := by
      rw [← isUnit_cast]
      exact IsUnit.of_pow_eq_one ((hdvd n).1 h) (by omega)
    obtain ⟨k, k0, k1, k2, k3⟩ := (C26_multiplicative_order x p hp.two_le phiFac hf).2 hgcd
    exact ⟨k, k0, (hord k k1 k2 k3 n).1 h⟩
  · rintro ⟨k, k0, hk⟩
    by_cases hgcd : Int.gcd x p = 1
    · obtain ⟨k', k0', k1, k2, k3⟩ := (C26_multiplicative_order x p hp.two_le phiFac hf).2 hgcd
      rw [k0] at k0'
      simp only [Except.ok.injEq, Option.some.injEq] at k0'
      subst k0'
      exact (hord k k1 k2 k3 n).2 hk
    · rw [(C26_multiplicative_order x p hp.two_le phiFac hf).1 hgcd] at k0
      simp at k0

/-- C184: with a primitive root `g` of an odd prime `p`, `k = discrete_log(g, b, p)` exists for all `b` not divisible by `p`;
`power_mod(g, k, p) == b % p`, `b` has a square root exactly if `k` is even, and `multiplicative_order(b, p)` is
`(p - 1) // gcd(k, p - 1)`. -/
theorem C184_discrete_log (p : Nat) (hp : p.Prime) (h2 : p ≠ 2) (g : Int) (hg0 : 0 ≤ g) (hg : GeneratesUnits g p) (phiFac : List (Nat × Nat))
    (hf : FactorsTo phiFac p.totient) (rnd : Nat → Int) (b : Int) (hb : ¬ (p : Int) ∣ b) (L : List Int) (hL : sqrtsModP rnd b p = some (.ok L)) :
    ∃ k, discreteLog g b p = .ok k ∧ powerMod g k p = .ok (b % p) ∧ (L ≠ [] ↔ k % 2 = 0) ∧
      multiplicativeOrder b p phiFac = .ok (some ((p - 1) / Nat.gcd (p - 1) k)) := by
  haveI : Fact p.Prime := ⟨hp⟩
  have hp2 := hp.two_le
  have hodd : p % 2 = 1 := by rcases hp.eq_two_or_odd with h | h <;> omega
  have hbz : (b : ZMod p) ≠ 0 := by
    rw [ne_eq, ZMod.intCast_zmod_eq_zero_iff_dvd]
    exact hb
  have hgcd : Int.gcd b p = 1 := by
    rw [← isUnit_cast]
    exact isUnit_iff_ne_zero.2 hbz
  obtain ⟨d1, -, d3⟩ := C25_discrete_log g b p hp.one_le
  obtain ⟨k, k1, k2⟩ := d3 hg.1 (hg.2 b hgcd)
  have hk := d1 k k1
  have hgb : (g : ZMod p) ^ k = b := by
    have := cast_eq_iff_dvd.2 hk
    push_cast at this
    exact this
  obtain ⟨u, hu, hgen⟩ := (generatesUnits_iff hp2).1 hg
  have hou : orderOf u = p - 1 := by rw [(generates_iff_order hp2 u).1 hgen, Nat.totient_prime hp]
  have hog : orderOf (g : ZMod p) = p - 1 := by rw [← hu, orderOf_units, hou]
  refine ⟨k, k1, ?_, ?_, ?_⟩
  · rw [C04_power_mod_partial g k p hg0 (by omega) (by omega) (by omega)]
    congr 1
    rw [Int.toNat_natCast]
    exact Int.emod_eq_emod_iff_emod_sub_eq_zero.2 (Int.emod_eq_zero_of_dvd hk)
  · obtain ⟨L', e, -, hm⟩ := C20_sqrts_mod_p rnd b p hp _ hL
    injection e with e
    subst e
    have hsq : L ≠ [] ↔ IsSquare (b : ZMod p) := by
      rw [show L ≠ [] ↔ ∃ x, x ∈ L from ⟨L.exists_mem_of_ne_nil, fun ⟨_, h⟩ => List.ne_nil_of_mem h⟩]
      constructor
      · rintro ⟨x, hx⟩
        obtain ⟨-, -, h3⟩ := (hm x).1 hx
        rw [← cast_eq_iff_dvd] at h3
        push_cast at h3
        exact ⟨x, by rw [← h3, sq]⟩
      · rintro ⟨y, hy⟩
        obtain ⟨x, hx0, hx1, rfl⟩ := exists_rep hp.pos y
        refine ⟨x, (hm x).2 ⟨hx0, hx1, ?_⟩⟩
        rw [← cast_eq_iff_dvd]
        push_cast
        rw [hy, sq]
    rw [hsq, ZMod.euler_criterion p hbz, ← hgb, ← pow_mul, ← orderOf_dvd_iff_pow_eq_one, hog]
    obtain ⟨q, hq⟩ : ∃ q, p = 2 * q + 1 := ⟨p / 2, by omega⟩
    have hq0 : 0 < q := by omega
    rw [hq, show 2 * q + 1 - 1 = 2 * q by omega, show (2 * q + 1) / 2 = q by omega, Nat.mul_dvd_mul_iff_right hq0]
    exact Nat.dvd_iff_mod_eq_zero
  · obtain ⟨m, m0, m1, m2, m3⟩ := (C26_multiplicative_order b p hp2 phiFac hf).2 hgcd
    rw [m0]
    have hdvd : ∀ j : Nat, (p : Int) ∣ b ^ j - 1 ↔ (b : ZMod p) ^ j = 1 := by
      intro j; rw [← cast_eq_iff_dvd]; push_cast; rfl
    have : orderOf (b : ZMod p) = m := by
      rw [orderOf_eq_iff m1]
      refine ⟨(hdvd m).1 m2, fun j hj hj' hc => ?_⟩
      have := m3 j hj' ((hdvd j).2 hc)
      omega
    rw [← this, ← hgb, orderOf_pow' _ (by omega), hog]

/-! ## Examples -/

example : jacobiSymbol 2 17 = .ok 1 ∧ jacobiSymbol 5 7 = .ok (-1) ∧ jacobiSymbol 14 7 = .ok 0 := by decide +kernel
example : linearCongruence 3 1 10 = .ok [7] ∧ inverseMod 3 10 = .ok 7 ∧ linearCongruence 4 1 10 = .ok [] := by decide +kernel
example : nthRootsOfUnity 4 13 2 = [1, 5, 8, 12] ∧ nthRootsOfUnity 2 13 2 = [1, 12] ∧ nthRootsOfMinus1 2 13 2 = [5, 8] := by
  decide +kernel
/-- `discrete_log(3, 2, 17)` is 14: even, and 2 has order 16/gcd(16, 14) = 8. -/
example : discreteLog 3 2 17 = .ok 14 ∧ multiplicativeOrder 2 17 [(2, 4)] = .ok (some 8) := by decide +kernel

end Rosemary.Props
