import Verif.Props.ModularCalls
import Verif.Props.InverseFunctions
import Verif.Props.Core
import Mathlib.NumberTheory.ArithmeticFunction.Moebius
import Mathlib.GroupTheory.SpecificGroups.Cyclic
import Mathlib.GroupTheory.Exponent

/-!
# The arithmetic functions called by a user fit together (C179)
-/

namespace Rosemary.Props

open Rosemary Rosemary.Core Rosemary.ArithFunctions Rosemary.Factorization Rosemary.Zn Rosemary.IntegerCalls
open Rosemary.Primality Rosemary.ModularCalls

theorem oneLarge_dvd {l n d : Nat} (h : OneLarge l n) (hd : d ∣ n) : OneLarge l d := fun p q hp hq h1 h2 h3 =>
  h p q hp hq h1 h2 (h3.trans hd)

/-- The list of divisors is that of Mathlib. -/
theorem divisorsCall_perm (fct : Nat → Nat → Option Nat) (n : Nat) (hn : 1 ≤ n) (hlt : OneLarge 999983 n) :
    ∃ L, divisorsCall primeList fct n = some (.ok L) ∧ L.Nodup ∧ (∀ d ∈ L, 1 ≤ d ∧ d ∣ n) ∧ L.toFinset = n.divisors := by
  obtain ⟨⟨L, h1, h2, h3⟩, -⟩ := C139_divisors_partial fct n (by omega) (by simpa using hlt)
  have h3' : ∀ d, d ∈ L ↔ d ∣ n := fun d => by rw [h3]; exact Int.natCast_dvd_natCast
  refine ⟨L, h1, h2.imp (fun h => h.ne), fun d hd => ⟨Nat.pos_of_dvd_of_pos ((h3' d).1 hd) hn, (h3' d).1 hd⟩, ?_⟩
  ext d
  rw [List.mem_toFinset, h3', Nat.mem_divisors]
  exact ⟨fun h => ⟨h, by omega⟩, fun h => h.1⟩

/-- C179: `sum(euler_phi(d) for d in divisors(n)) == n`, `sum(moebius_mu(d) for d in divisors(n))` is 1 for `n = 1` and 0
otherwise, `len(divisors(n)) == divisor_tau(n)`, `sum(d**k for d in divisors(n)) == divisor_sigma(n, k)`. -/
theorem C179_divisor_sums_partial (fct : Nat → Nat → Option Nat) (n : Nat) (hn : 1 ≤ n) (hlt : OneLarge 999983 n) :
    ∃ (L : List Nat) (ph : Nat → Nat) (mu : Nat → Int), divisorsCall primeList fct n = some (.ok L) ∧
      (∀ d ∈ L, eulerPhiCall primeList fct d = some (.ok (ph d)) ∧ moebiusMuCall primeList fct d = some (.ok (mu d))) ∧
      (L.map ph).sum = n ∧ (L.map mu).sum = (if n = 1 then 1 else 0) ∧
      divisorTauCall primeList fct n = some (.ok L.length) ∧
      ∀ k : Nat, divisorSigmaCall primeList fct n k = some (.ok (L.map (· ^ k)).sum) := by
  obtain ⟨L, h1, h2, h3, h4⟩ := divisorsCall_perm fct n hn hlt
  refine ⟨L, Nat.totient, fun d => ArithmeticFunction.moebius d, h1, fun d hd => ?_, ?_, ?_, ?_, fun k => ?_⟩
  · have := C139_multiplicative_partial fct d (h3 d hd).1 (oneLarge_dvd hlt (h3 d hd).2) 0
    exact ⟨this.1, this.2.1⟩
  · rw [← List.sum_toFinset _ h2, h4]
    exact Nat.sum_totient n
  · rw [← List.sum_toFinset _ h2, h4]
    have := congrFun (congrArg DFunLike.coe ArithmeticFunction.coe_zeta_mul_moebius) n
    rw [ArithmeticFunction.coe_zeta_mul_apply, ArithmeticFunction.one_apply] at this
    exact this
  · rw [(C139_multiplicative_partial fct n hn hlt 0).2.2.1, ← h4, List.toFinset_card_of_nodup h2]
  · rw [(C139_multiplicative_partial fct n hn hlt k).2.2.2.1, ← h4, List.sum_toFinset _ h2]

/-- C179, Moebius inversion: `sum(moebius_mu(d) * divisor_sigma(n // d, k) for d in divisors(n)) == n**k`. -/
theorem C179_moebius_inversion_partial (fct : Nat → Nat → Option Nat) (n k : Nat) (hn : 1 ≤ n) (hlt : OneLarge 999983 n) :
    ∃ (L : List Nat) (mu : Nat → Int) (sg : Nat → Nat), divisorsCall primeList fct n = some (.ok L) ∧
      (∀ d ∈ L, moebiusMuCall primeList fct d = some (.ok (mu d)) ∧
        divisorSigmaCall primeList fct ((n / d : Nat) : Int) k = some (.ok (sg (n / d)))) ∧
      (L.map (fun d => mu d * sg (n / d))).sum = (n : Int) ^ k := by
  obtain ⟨L, h1, h2, h3, h4⟩ := divisorsCall_perm fct n hn hlt
  refine ⟨L, fun d => ArithmeticFunction.moebius d, fun m => ∑ e ∈ m.divisors, e ^ k, h1, fun d hd => ⟨?_, ?_⟩, ?_⟩
  · exact (C139_multiplicative_partial fct d (h3 d hd).1 (oneLarge_dvd hlt (h3 d hd).2) 0).2.1
  · exact (C139_multiplicative_partial fct (n / d) (Nat.div_pos (Nat.le_of_dvd hn (h3 d hd).2) (h3 d hd).1)
      (oneLarge_dvd hlt (Nat.div_dvd_of_dvd (h3 d hd).2)) k).2.2.2.1
  · rw [← List.sum_toFinset _ h2, h4]
    have := (ArithmeticFunction.sum_eq_iff_sum_mul_moebius_eq (R := ℤ) (f := fun e => (e : ℤ) ^ k)
      (g := fun m => ((∑ e ∈ m.divisors, e ^ k : ℕ) : ℤ))).1 (fun m _ => by push_cast; rfl) n hn
    rw [← this]
    exact (Nat.sum_divisorsAntidiagonal (fun x y => (((ArithmeticFunction.moebius x : ℤ) : ℤ)) *
      ((∑ e ∈ y.divisors, e ^ k : ℕ) : ℤ))).symm

/-- C179: the functions are multiplicative: on coprime arguments `f(m * n) == f(m) * f(n)`. -/
theorem C179_multiplicative_partial (fct : Nat → Nat → Option Nat) (m n k : Nat) (hm : 1 ≤ m) (hn : 1 ≤ n)
    (hmn : Nat.Coprime m n) (hlt : OneLarge 999983 (m * n)) :
    ∃ (p q s t : Nat) (x y : Int) (a b : Nat),
      eulerPhiCall primeList fct m = some (.ok p) ∧ eulerPhiCall primeList fct n = some (.ok q) ∧
      eulerPhiCall primeList fct (m * n : Nat) = some (.ok (p * q)) ∧
      divisorTauCall primeList fct m = some (.ok s) ∧ divisorTauCall primeList fct n = some (.ok t) ∧
      divisorTauCall primeList fct (m * n : Nat) = some (.ok (s * t)) ∧
      moebiusMuCall primeList fct m = some (.ok x) ∧ moebiusMuCall primeList fct n = some (.ok y) ∧
      moebiusMuCall primeList fct (m * n : Nat) = some (.ok (x * y)) ∧
      divisorSigmaCall primeList fct m k = some (.ok a) ∧ divisorSigmaCall primeList fct n k = some (.ok b) ∧
      divisorSigmaCall primeList fct (m * n : Nat) k = some (.ok (a * b)) := by
  obtain ⟨a1, a2, a3, a4, -⟩ := C139_multiplicative_partial fct m hm (oneLarge_dvd hlt (Dvd.intro _ rfl)) k
  obtain ⟨b1, b2, b3, b4, -⟩ := C139_multiplicative_partial fct n hn (oneLarge_dvd hlt (Dvd.intro_left _ rfl)) k
  obtain ⟨c1, c2, c3, c4, -⟩ := C139_multiplicative_partial fct (m * n) (Nat.mul_pos hm hn) hlt k
  refine ⟨_, _, _, _, _, _, _, _, a1, b1, ?_, a3, b3, ?_, a2, b2, ?_, a4, b4, ?_⟩
  · rw [c1, Nat.totient_mul hmn]
  · rw [c3, hmn.card_divisors_mul]
  · rw [c2, ArithmeticFunction.isMultiplicative_moebius.map_mul_of_coprime hmn]
  · rw [c4]
    have := ArithmeticFunction.isMultiplicative_sigma (k := k) |>.map_mul_of_coprime hmn
    simp only [ArithmeticFunction.sigma_apply] at this
    rw [this]

section units

variable {n : Nat}

theorem order_eq (hn : 2 ≤ n) {a : Int} {k : Nat} (hk : 1 ≤ k) (h1 : (n : Int) ∣ a ^ k - 1)
    (h2 : ∀ j : Nat, 1 ≤ j → (n : Int) ∣ a ^ j - 1 → k ≤ j) : orderOf (a : ZMod n) = k := by
  have key : ∀ j : Nat, (n : Int) ∣ a ^ j - 1 ↔ (a : ZMod n) ^ j = 1 := fun j => by
    rw [← ZMod.intCast_zmod_eq_zero_iff_dvd]
    push_cast
    rw [sub_eq_zero]
  refine le_antisymm (orderOf_le_of_pow_eq_one (by omega) ((key k).1 h1)) (h2 _ ?_ ((key _).2 (pow_orderOf_eq_one _)))
  exact orderOf_pos_iff.2 (isOfFinOrder_iff_pow_eq_one.2 ⟨k, by omega, (key k).1 h1⟩)

theorem exponent_eq (hn : 2 ≤ n) {k : Nat} (hk : 1 ≤ k) (h1 : ∀ a, Nat.Coprime a n → a ^ k ≡ 1 [MOD n])
    (h2 : ∀ j, 1 ≤ j → (∀ a, Nat.Coprime a n → a ^ j ≡ 1 [MOD n]) → k ≤ j) : Monoid.exponent (ZMod n)ˣ = k := by
  haveI : NeZero n := ⟨by omega⟩
  have key : ∀ j : Nat, (∀ a, Nat.Coprime a n → a ^ j ≡ 1 [MOD n]) ↔ ∀ u : (ZMod n)ˣ, u ^ j = 1 := by
    intro j
    constructor
    · intro h u
      have := h (u : ZMod n).val (ZMod.val_coe_unit_coprime u)
      rw [← ZMod.natCast_eq_natCast_iff] at this
      push_cast at this
      rw [ZMod.natCast_zmod_val] at this
      exact Units.ext (by push_cast; exact this)
    · intro h a ha
      have := congrArg (Units.val) (h (ZMod.unitOfCoprime a ha))
      rw [Units.val_pow_eq_pow_val, ZMod.coe_unitOfCoprime, Units.val_one] at this
      rw [← ZMod.natCast_eq_natCast_iff]
      push_cast
      exact this
  refine le_antisymm (Monoid.exponent_min' k (by omega) ((key k).1 h1)) (h2 _ ?_ ((key _).2 Monoid.pow_exponent_eq_one))
  exact Monoid.exponent_pos.2 Monoid.ExponentExists.of_finite

theorem generatesUnits_iff_order (hn : 2 ≤ n) {a : Int} : GeneratesUnits a n ↔ orderOf (a : ZMod n) = n.totient := by
  haveI : NeZero n := ⟨by omega⟩
  rw [generatesUnits_iff hn]
  constructor
  · rintro ⟨u, hu, h⟩
    rw [← hu, orderOf_units, orderOf_eq_card_of_forall_mem_zpowers h, Nat.card_eq_fintype_card, ZMod.card_units_eq_totient]
  · intro h
    have hfin : IsOfFinOrder (a : ZMod n) := orderOf_pos_iff.1 (by rw [h]; exact Nat.totient_pos.2 (by omega))
    obtain ⟨u, hu⟩ := hfin.isUnit
    refine ⟨u, hu, fun x => ?_⟩
    have hc : Nat.card (Subgroup.zpowers u) = Nat.card (ZMod n)ˣ := by
      rw [Nat.card_zpowers, ← orderOf_units, hu, h, Nat.card_eq_fintype_card, ZMod.card_units_eq_totient]
    rw [Subgroup.eq_top_of_card_eq _ hc]
    exact Subgroup.mem_top x

/-- The numbers below `n` of multiplicative order `φ(n)` are `φ(φ(n))` many, if there are any. -/
theorem card_generators (hn : 2 ≤ n) {S : Finset Nat} (hS : ∀ a, a ∈ S ↔ a < n ∧ GeneratesUnits a n)
    (hc : Monoid.exponent (ZMod n)ˣ = n.totient) : S.card = n.totient.totient := by
  haveI : NeZero n := ⟨by omega⟩
  have hcard : Fintype.card (ZMod n)ˣ = n.totient := ZMod.card_units_eq_totient n
  haveI : IsCyclic (ZMod n)ˣ := IsCyclic.iff_exponent_eq_card.2 (by rw [hc, Nat.card_eq_fintype_card, hcard])
  rw [← IsCyclic.card_orderOf_eq_totient (α := (ZMod n)ˣ) (d := n.totient) (by rw [hcard])]
  symm
  refine Finset.card_bij (fun u _ => (u : ZMod n).val) (fun u hu => ?_) (fun u _ v _ h => ?_) (fun a ha => ?_)
  · rw [Finset.mem_filter] at hu
    rw [hS, generatesUnits_iff_order hn]
    refine ⟨ZMod.val_lt _, ?_⟩
    push_cast
    rw [ZMod.natCast_zmod_val, orderOf_units]
    exact hu.2
  · exact Units.ext (ZMod.val_injective n h)
  · rw [hS, generatesUnits_iff_order hn] at ha
    have hfin : IsOfFinOrder ((a : Int) : ZMod n) := orderOf_pos_iff.1 (by rw [ha.2]; exact Nat.totient_pos.2 (by omega))
    obtain ⟨u, hu⟩ := hfin.isUnit
    refine ⟨u, ?_, ?_⟩
    · rw [Finset.mem_filter]
      refine ⟨Finset.mem_univ _, ?_⟩
      rw [← orderOf_units, hu, ha.2]
    · rw [hu]
      push_cast
      exact ZMod.val_cast_of_lt ha.1

end units

/-- C179: with `lam = carmichael_lambda(n)` and `ph = euler_phi(n)`: `multiplicative_order(a, n)` divides `lam`, `lam` divides
`ph`, some `a` has order `lam`; `is_primitive_root(a, n)` says whether the order is `ph`; `primitive_root(n)` returns exactly
if `lam == ph`, and then a number of order `ph`; `is_primitive_root(a, n)` is `True` for `euler_phi(euler_phi(n))` of the `a` in
`range(n)` in this case and for none in the other. -/
theorem C179_orders_partial (fct : Nat → Nat → Option Nat) (n : Nat) (hn : 2 ≤ n) (hlt : OneLarge 999983 n)
    (hlt' : OneLarge 999983 n.totient) :
    ∃ lam ph pp : Nat, carmichaelCall primeList fct n = some (.ok (lam : Int)) ∧ eulerPhiCall primeList fct n = some (.ok ph) ∧
      eulerPhiCall primeList fct ph = some (.ok pp) ∧ lam ∣ ph ∧
      (∀ a : Int, Int.gcd a n = 1 → ∃ k, multiplicativeOrderCall primeList fct a n = some (.ok (some k)) ∧ k ∣ lam ∧
        isPrimitiveRootCall primeList fct a n = some (.ok (decide (k = ph)))) ∧
      (∃ a : Nat, multiplicativeOrderCall primeList fct a n = some (.ok (some lam))) ∧
      (lam = ph → ∃ g : Nat, primitiveRootCall primeList fct n = some (.ok (some g)) ∧
        multiplicativeOrderCall primeList fct g n = some (.ok (some ph))) ∧
      (lam ≠ ph → primitiveRootCall primeList fct n = some (.error .valueError)) ∧
      ∀ S : Finset Nat, (∀ a, a ∈ S ↔ a < n ∧ isPrimitiveRootCall primeList fct a n = some (.ok true)) →
        S.card = if lam = ph then pp else 0 := by
  haveI : NeZero n := ⟨by omega⟩
  obtain ⟨lam, l1, l2, l3, l4⟩ := C139_carmichael_partial fct n (by omega) hlt
  have hexp := exponent_eq hn l2 l3 l4
  have hcard : Nat.card (ZMod n)ˣ = n.totient := by rw [Nat.card_eq_fintype_card, ZMod.card_units_eq_totient]
  have hord : ∀ a : Int, Int.gcd a n = 1 →
      multiplicativeOrderCall primeList fct a n = some (.ok (some (orderOf (a : ZMod n)))) := by
    intro a ha
    obtain ⟨k, h1, h2, h3, h4⟩ := (C146_multiplicative_order_partial fct a n (by simpa using hlt) (by simpa using hlt')).2
      (by omega) ha
    rw [order_eq hn h2 h3 h4]
    exact h1
  have hpr : ∀ a : Int, ∃ b, isPrimitiveRootCall primeList fct a n = some (.ok b) ∧ (b = true ↔ GeneratesUnits a n) := by
    intro a
    have := (C146_is_primitive_root_partial fct a n (by simpa using hlt) (by simpa using hlt')).2 (by omega)
    simpa using this
  have hgen := C139_primitive_root_partial fct n hn hlt hlt'
  have hex : (∃ a, GeneratesUnits a n) ↔ lam = n.totient := by
    rw [← hexp, ← hcard, ← IsCyclic.iff_exponent_eq_card]
    constructor
    · rintro ⟨a, ha⟩
      obtain ⟨u, -, hu⟩ := (generatesUnits_iff hn).1 ha
      exact ⟨u, hu⟩
    · rintro ⟨u, hu⟩
      refine ⟨((u : ZMod n).val : Int), (generatesUnits_iff hn).2 ⟨u, ?_, hu⟩⟩
      push_cast
      rw [ZMod.natCast_zmod_val]
  refine ⟨lam, n.totient, n.totient.totient, l1, (C139_multiplicative_partial fct n (by omega) hlt 0).1,
    (C139_multiplicative_partial fct n.totient (Nat.totient_pos.2 (by omega)) hlt' 0).1, ?_, fun a ha => ?_, ?_, fun h => ?_,
    fun h => ?_, fun S hS => ?_⟩
  · rw [← hexp, ← hcard]; exact Group.exponent_dvd_nat_card
  · refine ⟨_, hord a ha, ?_, ?_⟩
    · obtain ⟨u, hu⟩ := isUnit_cast.2 ha
      rw [← hexp, ← hu, orderOf_units]
      exact Monoid.order_dvd_exponent u
    · obtain ⟨b, h1, h2⟩ := hpr a
      rw [h1]
      congr 2
      rw [Bool.eq_iff_iff, h2, generatesUnits_iff_order hn, decide_eq_true_iff]
  · obtain ⟨u, hu⟩ := Monoid.exists_orderOf_eq_exponent (G := (ZMod n)ˣ) Monoid.ExponentExists.of_finite
    refine ⟨(u : ZMod n).val, ?_⟩
    have hc : Int.gcd ((u : ZMod n).val : Int) n = 1 := ZMod.val_coe_unit_coprime u
    rw [hord _ hc]
    push_cast
    rw [ZMod.natCast_zmod_val, orderOf_units, hu, hexp]
  · obtain ⟨g, g1, -, -, g2, -⟩ := hgen.1 (hex.2 h)
    refine ⟨g, g1, ?_⟩
    rw [hord _ g2.1, (generatesUnits_iff_order hn).1 g2]
  · exact hgen.2 (fun h' => h (hex.1 h'))
  · have hS' : ∀ a, a ∈ S ↔ a < n ∧ GeneratesUnits a n := by
      intro a
      obtain ⟨b, h1, h2⟩ := hpr a
      rw [hS, h1, ← h2]
      simp
    split_ifs with h
    · exact card_generators hn hS' (hexp.trans h)
    · rw [Finset.card_eq_zero, Finset.eq_empty_iff_forall_notMem]
      intro a ha
      exact h (hex.1 ⟨a, ((hS' a).1 ha).2⟩)

/-- C179, the theorem of Euler: `power_mod(a, euler_phi(n), n) == power_mod(a, carmichael_lambda(n), n) == 1` for `a` coprime
to `n`, and `inverse_mod(a, n) == power_mod(a, carmichael_lambda(n) - 1, n)`. -/
theorem C179_euler_theorem_partial (fct : Nat → Nat → Option Nat) (n a : Nat) (hn : 2 ≤ n) (ha : Nat.Coprime a n)
    (hlt : OneLarge 999983 n) :
    ∃ (lam ph : Nat) (b : Int), carmichaelCall primeList fct n = some (.ok (lam : Int)) ∧
      eulerPhiCall primeList fct n = some (.ok ph) ∧ powerMod a ph n = .ok 1 ∧ powerMod a lam n = .ok 1 ∧
      inverseMod a n = .ok b ∧ powerMod a ((lam : Int) - 1) n = .ok b := by
  obtain ⟨lam, l1, l2, l3, -⟩ := C139_carmichael_partial fct n (by omega) hlt
  have hpow : ∀ k : Nat, powerMod a k n = .ok ((a : Int) ^ k % n) := by
    intro k
    have := C04_power_mod_partial a k n (by omega) (by omega) (by omega) (by
      rintro ⟨-, h, -⟩
      have : n ∣ a := by exact_mod_cast h
      have := Nat.eq_one_of_dvd_coprimes ha this (dvd_refl n)
      omega)
    simpa using this
  have hone : ∀ k : Nat, a ^ k ≡ 1 [MOD n] → (a : Int) ^ k % n = 1 := by
    intro k h
    have h' : a ^ k % n = 1 := by rw [h]; exact Nat.mod_eq_of_lt (by omega)
    exact_mod_cast h'
  obtain ⟨b, b1, b2, b3, b4⟩ := (C05_inverse_mod a n).1 ⟨by omega, by exact_mod_cast ha⟩
  refine ⟨lam, n.totient, b, l1, (C139_multiplicative_partial fct n (by omega) hlt 0).1, ?_, ?_, b1, ?_⟩
  · rw [hpow, hone _ (Nat.ModEq.pow_totient ha)]
  · rw [hpow, hone _ (l3 a ha)]
  · have hc : ((lam : Int) - 1) = ((lam - 1 : Nat) : Int) := by omega
    rw [hc, hpow]
    congr 1
    have h1 := hone _ (l3 a ha)
    have h2 : (n : Int) ∣ (a : Int) ^ lam - 1 := (Int.emod_eq_emod_iff_emod_sub_eq_zero.1 (by rw [h1]; exact (Int.emod_eq_of_lt (by omega) (by omega)).symm) |> Int.dvd_of_emod_eq_zero)
    have h3 : (n : Int) ∣ (a : Int) ^ (lam - 1) - b := by
      have e : (a : Int) ^ lam = a * (a : Int) ^ (lam - 1) := by
        conv_lhs => rw [show lam = (lam - 1) + 1 by omega, pow_succ']
      have h4 : (n : Int) ∣ a * ((a : Int) ^ (lam - 1) - b) := by
        have := dvd_sub h2 b4
        rw [e] at this
        have e2 : (a : Int) * ((a : Int) ^ (lam - 1) - b) = a * (a : Int) ^ (lam - 1) - 1 - (a * b - 1) := by ring
        rwa [e2]
      exact IsCoprime.dvd_of_dvd_mul_left (Nat.isCoprime_iff_coprime.2 ha.symm) h4
    rw [Int.emod_eq_emod_iff_emod_sub_eq_zero.2 (Int.emod_eq_zero_of_dvd h3)]
    exact Int.emod_eq_of_lt b2 b3

/-- C179: `k` is in `euler_phi_inverse(n)` exactly if `euler_phi(k) == n`. -/
theorem C179_phi_inverse_partial (fct : Nat → Nat → Option Nat) (n : Nat) (hn : 1 ≤ n) (hlt : OneLarge 999983 n) :
    ∃ L, InverseFunctions.eulerPhiInverse primeList fct n = some (.ok L) ∧
      ∀ k : Nat, 1 ≤ k → OneLarge 999983 k → (k ∈ L ↔ eulerPhiCall primeList fct k = some (.ok n)) := by
  obtain ⟨L, h1, -, h2⟩ := C98_integer_real_partial fct n (by omega) (by simpa using hlt)
  refine ⟨L, h1, fun k hk hk' => ?_⟩
  rw [h2, (C139_multiplicative_partial fct k hk hk' 0).1]
  simp

/-- C179: beyond the restriction the theorem of Euler fails for the returned values: `euler_phi` reports `n - 1` for the
composite number 341550071728321, but `power_mod(23, n - 1, n)` is not 1 although 23 and `n` are coprime. -/
theorem C179_euler_theorem_violation (fct : Nat → Nat → Option Nat) :
    eulerPhiCall primeList fct 341550071728321 = some (.ok 341550071728320) ∧ Int.gcd 23 341550071728321 = 1 ∧
      powerMod 23 341550071728320 341550071728321 ≠ .ok 1 := by
  refine ⟨(C139_violation fct).1, by decide +kernel, ?_⟩
  have : powerMod 23 341550071728320 341550071728321 = .ok 188759586251536 := by decide +kernel
  rw [this]
  decide

/-! ## Examples -/

example : ∃ L, divisorsCall primeList (fun _ _ => none) (60 : Nat) = some (.ok L) ∧
    divisorTauCall primeList (fun _ _ => none) (60 : Nat) = some (.ok L.length) ∧ L.length = 12 := by
  obtain ⟨L, ph, mu, h1, -, -, -, h2, -⟩ := C179_divisor_sums_partial (fun _ _ => none) 60 (by norm_num)
    (oneLarge_real (by norm_num) (by norm_num)).1
  refine ⟨L, h1, h2, ?_⟩
  rw [(C139_multiplicative_partial (fun _ _ => none) 60 (by norm_num) (oneLarge_real (by norm_num) (by norm_num)).1 0).2.2.1] at h2
  simp only [Option.some.injEq, Except.ok.injEq] at h2
  rw [← h2]
  decide +kernel

/-- Modulo 8 there is no primitive root: all odd numbers have order 1 or 2, `euler_phi(8)` is 4. -/
example : primitiveRootCall primeList (fun _ _ => none) 8 = some (.error .valueError) := by
  obtain ⟨lam, ph, pp, h1, h2, -, -, -, ⟨a, ha⟩, -, h3, -⟩ := C179_orders_partial (fun _ _ => none) 8 (by norm_num)
    (oneLarge_real (by norm_num) (by norm_num)).1 (oneLarge_real (by norm_num) (by norm_num)).2
  refine h3 ?_
  rw [(C139_multiplicative_partial (fun _ _ => none) 8 (by norm_num) (oneLarge_real (by norm_num) (by norm_num)).1 0).1] at h2
  obtain ⟨lam', l1, -, -, l4⟩ := C139_carmichael_partial (fun _ _ => none) 8 (by norm_num)
    (oneLarge_real (by norm_num) (by norm_num)).1
  rw [l1] at h1
  simp only [Option.some.injEq, Except.ok.injEq, Nat.cast_inj] at h1 h2
  have : lam' ≤ 2 := l4 2 (by norm_num) (by
    intro b hb
    have hb2 : b % 8 = 1 ∨ b % 8 = 3 ∨ b % 8 = 5 ∨ b % 8 = 7 := by
      have : ¬ 2 ∣ b := fun h => by
        have := Nat.dvd_gcd h (by norm_num : 2 ∣ 8)
        rw [hb] at this
        omega
      omega
    rw [Nat.ModEq, Nat.pow_mod]
    rcases hb2 with h | h | h | h <;> rw [h])
  have h8 : Nat.totient 8 = 4 := by decide +kernel
  omega

end Rosemary.Props
