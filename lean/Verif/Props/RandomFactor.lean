import Verif.Props.Pollard
import Verif.Props.Factorization
import Verif.Props.Lehmer
import Verif.Lemmas.RandomRuns

/-!
# Property C147: `factor` under random choices
-/

namespace Rosemary.Props

open Rosemary Rosemary.Core Rosemary.Primality Rosemary.Factorization Rosemary.Spec Rosemary.RandomRuns
open MeasureTheory

/-! ## One call of `pollard_rho_brent` -/

private theorem dvd_emod_iff' {a b n : Int} (h : a ∣ n) : a ∣ b % n ↔ a ∣ b := by
  have := Int.emod_add_mul_ediv b n
  constructor
  · intro h1; rw [← this]; exact dvd_add h1 (h.mul_right _)
  · intro h1; rw [← this] at h1; exact (dvd_add_left (h.mul_right _)).1 h1

private theorem rhoStart_run {n p : Nat} (h1 : 1 < p) (hp : p ∣ n) (hlt : p < n) :
    ∃ g : Nat, g ∣ n ∧ p ∣ g ∧ (g = n → n ∣ p * p + p) ∧
      brentOuter n p 1 0 1 = some (0, (p : Int), (g : Int)) := by
  set y : Int := ((p : Int) * p + p).fmod n with hy
  set prod : Int := (1 * (0 - y)).fmod n with hprod
  have hn0 : (n : Int) ≠ 0 := by omega
  have hy' : (y : Int) = ((p : Int) * p + p) % n := by rw [hy, Int.fmod_eq_emod_of_nonneg _ (by omega)]
  have hprod' : prod = (-y) % n := by rw [hprod, Int.fmod_eq_emod_of_nonneg _ (by omega)]; ring_nf
  have hpy : (p : Int) ∣ y := by
    rw [hy', dvd_emod_iff']
    · exact Dvd.intro _ (by ring : (p : Int) * (p + 1) = _)
    · exact_mod_cast hp
  have hpp : (p : Int) ∣ prod := by
    rw [hprod', dvd_emod_iff' (by exact_mod_cast hp)]
    exact (dvd_neg).2 hpy
  refine ⟨Int.gcd prod n, ?_, ?_, ?_, ?_⟩
  · exact_mod_cast Int.gcd_dvd_right (a := prod) (b := n)
  · exact Int.natCast_dvd_natCast.1 (Int.dvd_coe_gcd hpp (by exact_mod_cast hp))
  · intro h
    have h2 : (n : Int) ∣ prod := by
      have := Int.gcd_dvd_left (a := prod) (b := n); rwa [h] at this
    rw [hprod'] at h2
    have h3 : (n : Int) ∣ y := by
      have := (dvd_emod_iff' (dvd_refl (n : Int))).1 h2
      exact (dvd_neg).1 this
    rw [hy'] at h3
    have h4 := (dvd_emod_iff' (dvd_refl (n : Int))).1 h3
    exact_mod_cast h4
  · have hg : 1 < (Int.gcd prod n : Int) := by
      have : p ∣ Int.gcd prod n := Int.natCast_dvd_natCast.1 (Int.dvd_coe_gcd hpp (by exact_mod_cast hp))
      have h0 : 0 < Int.gcd prod n := Int.gcd_pos_of_ne_zero_right _ hn0
      have := Nat.le_of_dvd h0 this
      omega
    have e1 : brentAdvance n p 1 0 = p := by
      simp only [brentAdvance]
      rw [Int.fmod_eq_emod_of_nonneg _ (by omega), zero_mul, zero_add]
      exact Int.emod_eq_of_lt (by omega) (by omega)
    have e2 : brentInner n p 0 1 0 p 1 = ((p : Int), y, prod, (Int.gcd prod n : Int)) := by
      rw [brentInner]
      simp only [show min 100 (1 - 0) = 1 from rfl, brentAccum, gcd_eq]
      rw [if_pos (Or.inr hg)]
    rw [brentOuter]
    simp only [e1, e2]
    rw [if_pos hg]

/-- C147: an odd composite number can always be split: with `c` its least prime factor and `y = 0`, both of which
`randint` may return, `pollard_rho_brent(n)` returns a proper divisor. -/
theorem C147_lucky_call (n : Nat) (hn : 1 < n) (hodd : n % 2 = 1) (hc : ¬ n.Prime) :
    (1 ≤ (n.minFac : Int) ∧ (n.minFac : Int) ≤ n - 3) ∧ (0 : Int) ≤ n - 1 ∧
      ∃ d : Nat, pollardRhoBrentCall n n.minFac 0 = .ok (some (d : Int)) ∧ d ∣ n ∧ 1 < d ∧ d < n := by
  have hp := Nat.minFac_prime (show n ≠ 1 by omega)
  have hd := Nat.minFac_dvd n
  have hsq := Nat.minFac_sq_le_self (show 0 < n by omega) hc
  have h3 : 3 ≤ n.minFac := by
    have := hp.two_le
    have h2 : n.minFac ≠ 2 := fun h => by
      have := (Nat.minFac_eq_two_iff n).1 h; omega
    omega
  have hle : n.minFac + 3 ≤ n := by nlinarith
  obtain ⟨g, g1, g2, g3, g4⟩ := rhoStart_run (by omega) hd (show n.minFac < n by omega)
  have hgn : g ≠ n := by
    intro h
    have h4 := g3 h
    obtain ⟨m, hm⟩ := hd
    set p := n.minFac
    have h5 : p * m ∣ p * (p + 1) := by rw [← hm]; rwa [mul_add, mul_one]
    have h6 : m ∣ p + 1 := Nat.dvd_of_mul_dvd_mul_left (by omega) h5
    have h7 : m ≤ p + 1 := Nat.le_of_dvd (by omega) h6
    have h8 : p ≤ m := by
      by_contra hlt
      have : n < p ^ 2 := by rw [hm, sq]; exact Nat.mul_lt_mul_of_pos_left (by omega) (by omega)
      omega
    have hmo : m % 2 = 1 := by
      by_contra hm2
      have : m % 2 = 0 := by omega
      have : n % 2 = 0 := by rw [hm, Nat.mul_mod, this]; simp
      omega
    have hpo : p % 2 = 1 := by
      by_contra hm2
      have : p % 2 = 0 := by omega
      have : n % 2 = 0 := by rw [hm, Nat.mul_mod, this]; simp
      omega
    have h9 : m = p := by omega
    rw [h9] at h6
    have := (Nat.dvd_add_right (dvd_refl p)).1 h6
    have := Nat.le_of_dvd one_pos this
    omega
  refine ⟨⟨by omega, by omega⟩, by omega, g, ?_, g1, ?_, ?_⟩
  · unfold pollardRhoBrentCall randintOf
    rw [if_neg (by omega), if_neg (by omega)]
    dsimp only
    unfold pollardRhoBrent
    rw [g4]
    simp only [Option.bind_eq_bind, Option.bind_some]
    rw [if_neg (by exact_mod_cast hgn)]
  · have := Nat.le_of_dvd (Nat.pos_of_dvd_of_pos g1 (by omega)) g2
    omega
  · have := Nat.le_of_dvd (by omega) g1
    omega

/-- C147: for every `n ≥ 7`, prime or not, `randint` may also return `c = n - 6` and `y = 3`, and then the result is `n`
itself. -/
theorem C147_unlucky_call (n : Nat) (hn : 7 ≤ n) :
    (1 ≤ (n : Int) - 6 ∧ (n : Int) - 6 ≤ n - 3) ∧ ((0 : Int) ≤ 3 ∧ (3 : Int) ≤ n - 1) ∧
      pollardRhoBrentCall n ((n : Int) - 6) 3 = .ok (some (n : Int)) := by
  refine ⟨⟨by omega, by omega⟩, ⟨by omega, by omega⟩, ?_⟩
  have hf : ((3 : Int) * 3 + (n - 6)).fmod n = 3 := by
    rw [Int.fmod_eq_emod_of_nonneg _ (by omega), show (3 : Int) * 3 + (n - 6) = 3 + n * 1 by ring,
      Int.add_mul_emod_self_left]
    exact Int.emod_eq_of_lt (by omega) (by omega)
  have e1 : brentAdvance n ((n : Int) - 6) 1 3 = 3 := by simp only [brentAdvance, hf]
  have e2 : brentInner n ((n : Int) - 6) 3 1 0 3 1 = (3, 3, 0, (n : Int)) := by
    rw [brentInner]
    simp only [show min 100 (1 - 0) = 1 from rfl, brentAccum, gcd_eq, hf]
    simp only [sub_self, mul_zero, Int.zero_fmod, Int.gcd_zero_left, Int.natAbs_natCast]
    rw [if_pos (Or.inr (by omega))]
  unfold pollardRhoBrentCall randintOf
  rw [if_neg (by omega), if_neg (by omega)]
  dsimp only
  unfold pollardRhoBrent
  rw [brentOuter]
  simp only [e1, e2]
  rw [if_pos (by omega)]
  simp only [Option.bind_eq_bind, Option.bind_some]
  rw [if_pos trivial, brentBacktrack]
  simp only [hf, sub_self, gcd_eq, Int.gcd_zero_left, Int.natAbs_natCast]
  rw [if_pos (by omega)]

/-- Both calls on a number with three prime factors: with `c = 11` and `y = 0` the factor `11` is found, with `c = n - 6`
and `y = 3` nothing. -/
example : pollardRhoBrentCall 2431 11 0 = .ok (some 11) ∧ pollardRhoBrentCall 2431 2425 3 = .ok (some 2431) := by
  refine ⟨?_, (C147_unlucky_call 2431 (by norm_num)).2.2⟩
  have e1 : brentAdvance 2431 11 1 0 = 11 := by decide +kernel
  have e2 : brentInner 2431 11 0 1 0 11 1 = (11, 132, 2299, 11) := by
    rw [brentInner]
    have h : brentAccum 2431 11 0 (min 100 (1 - 0)) 11 1 = (132, 2299) := by decide +kernel
    have h2 : Core.gcd 2299 2431 = 11 := by rw [gcd_eq]; decide +kernel
    simp only [h, h2]
    rw [if_pos (Or.inr (by norm_num))]
  unfold pollardRhoBrentCall randintOf
  rw [if_neg (by norm_num), if_neg (by norm_num)]
  dsimp only
  unfold pollardRhoBrent
  rw [brentOuter]
  simp only [e1, e2]
  rw [if_pos (by norm_num)]
  simp

/-! ## `factor` -/

/-- The `i`-th call of the splitting routine is lucky for all composite divisors of `N`. -/
private def LuckyAt (N : Nat) (rnd : Nat → Nat → Int × Int) (i : Nat) : Prop :=
  ∀ m, m ∣ N → 1 < m → ¬ m.Prime → rnd i m = ((m.minFac : Int), 0)

private theorem odd_of_dvd {m N : Nat} (h : m ∣ N) (hN : N % 2 = 1) : m % 2 = 1 := by
  obtain ⟨k, rfl⟩ := h
  by_contra hc
  have : m % 2 = 0 := by omega
  rw [Nat.mul_mod, this] at hN
  simp at hN

private theorem call_some (rnd : Nat → Nat → Int × Int) (i m : Nat) (hm : 1 < m) :
    ∃ d, rhoSplitter rnd i m = some d ∧ d ∣ m ∧ 1 < d := by
  obtain ⟨d, h1, h2, h3⟩ := C137_pollard_rho_brent m hm (rnd i m).1 (rnd i m).2
  exact ⟨d, by unfold rhoSplitter; rw [h1]; rfl, h2, h3⟩

private theorem call_lucky {N : Nat} {rnd : Nat → Nat → Int × Int} {i m : Nat} (hN : N % 2 = 1)
    (hl : LuckyAt N rnd i) (hd : m ∣ N) (hm : 1 < m) (hp : isProbablePrime m = false) {d : Nat}
    (h : rhoSplitter rnd i m = some d) : d < m := by
  have hc : ¬ m.Prime := fun hc => by rw [isProbablePrime_prime m hc] at hp; cases hp
  obtain ⟨⟨-, h1⟩, h2, e, h3, -, -, h4⟩ := C147_lucky_call m hm (odd_of_dvd hd hN) hc
  unfold rhoSplitter at h
  rw [hl m hd hm hc] at h
  unfold pollardRhoBrentCall randintOf at h3
  have := (Nat.minFac_prime (show m ≠ 1 by omega)).one_lt
  rw [if_neg (by omega), if_neg (by omega)] at h3
  dsimp only at h3 h
  rw [Except.ok.injEq] at h3
  rw [h3] at h
  cases h
  simpa using h4

private theorem splitLoop_lucky {N : Nat} {rnd : Nat → Nat → Int × Int} (hN : N % 2 = 1)
    (hG : ∀ k, ∃ i, k ≤ i ∧ LuckyAt N rnd i) (d : Nat) (hd : d ∣ N) (h1 : 1 < d) (i : Nat) :
    (splitLoop (rhoSplitter rnd) i d).isSome := by
  induction d using Nat.strong_induction_on generalizing i with
  | _ d ih =>
    obtain ⟨g, hg, hl⟩ := hG i
    obtain ⟨t, rfl⟩ := Nat.exists_eq_add_of_le hg
    clear hg
    induction t generalizing i with
    | zero =>
      rw [splitLoop]
      by_cases hp : isProbablePrime d
      · rw [if_pos hp]; rfl
      · rw [if_neg hp]
        obtain ⟨e, h2, h3, h4⟩ := call_some rnd i d h1
        rw [h2]
        exact ih e (call_lucky hN hl hd h1 (by simpa using hp) h2) (h3.trans hd) h4 _
    | succ t iht =>
      rw [splitLoop]
      by_cases hp : isProbablePrime d
      · rw [if_pos hp]; rfl
      · rw [if_neg hp]
        obtain ⟨e, h2, h3, h4⟩ := call_some rnd i d h1
        rw [h2]
        rcases Nat.lt_or_ge e d with hlt | hge
        · exact ih e hlt (h3.trans hd) h4 _
        · have : e = d := le_antisymm (Nat.le_of_dvd (by omega) h3) hge
          subst this
          exact iht (i + 1) (by rwa [show i + 1 + t = i + (t + 1) by omega])

private theorem stripInto_dvd (p n : Nat) (l : List (Int × Nat)) (hp : 2 ≤ p) (hn : 0 < n) :
    0 < (stripInto p n l).1 ∧ (stripInto p n l).1 ∣ n ∧ ¬ p ∣ (stripInto p n l).1 := by
  fun_induction stripInto p n l with
  | case1 n l hc ih =>
    have hd := Nat.dvd_of_mod_eq_zero hc.2.2
    obtain ⟨h1, h2, h3⟩ := ih (Nat.div_pos (Nat.le_of_dvd hn hd) (by omega))
    exact ⟨h1, h2.trans (Nat.div_dvd_of_dvd hd), h3⟩
  | case2 n l hc => exact ⟨hn, dvd_rfl, fun h => hc ⟨hp, hn, Nat.mod_eq_zero_of_dvd h⟩⟩

private theorem bigFactors_lucky {N : Nat} {rnd : Nat → Nat → Int × Int} (hN : N % 2 = 1)
    (hG : ∀ k, ∃ i, k ≤ i ∧ LuckyAt N rnd i) (n : Nat) (hd : n ∣ N) (h0 : 0 < n) (i : Nat) (fac : List (Int × Nat)) :
    (bigFactors (rhoSplitter rnd) i n fac).isSome := by
  induction n using Nat.strong_induction_on generalizing i fac with
  | _ n ih =>
    rw [bigFactors]
    by_cases h1 : n > 1
    · rw [if_pos h1]
      by_cases hp : isProbablePrime n
      · rw [if_pos hp, bigFactors_one]; rfl
      · rw [if_neg hp]
        obtain ⟨d, h2, h3, h4⟩ := call_some rnd i n h1
        obtain ⟨⟨e, j⟩, h5⟩ := Option.isSome_iff_exists.1 (splitLoop_lucky hN hG d (h3.trans hd) h4 (i + 1))
        obtain ⟨h6, h7, -⟩ := splitLoop_spec _ (rhoSplitter_good rnd) _ _ _ h4 h5
        dsimp only at h6 h7
        obtain ⟨s1, s2, s3⟩ := stripInto_dvd e n fac h6 h0
        simp only [h2, Option.bind_eq_bind, Option.bind_some, h5]
        refine ih _ ?_ (s2.trans hd) s1 _ _
        refine lt_of_le_of_ne (Nat.le_of_dvd h0 s2) fun h => s3 ?_
        rw [h]; exact h7.trans h3
    · rw [if_neg h1]; rfl

/-- The numbers drawn by the `i`-th call of `pollard_rho_brent`, if it is made with the argument `m`
(algorithms.py:403-404): `c = randint(1, m - 3)` and `y = randint(0, m - 1)`. -/
noncomputable def brentLaw (im : Nat × Nat) : Measure (Int × Int) :=
  (randintLaw 1 ((im.2 : Int) - 3)).prod (randintLaw 0 ((im.2 : Int) - 1))

instance (im : Nat × Nat) : IsProbabilityMeasure (brentLaw im) := by
  unfold brentLaw; infer_instance

private theorem ae_lucky (N : Nat) (hN : N % 2 = 1) :
    ∀ᵐ ω ∂(Measure.infinitePi brentLaw), ∀ k, ∃ i, k ≤ i ∧ LuckyAt N (fun i m => ω (i, m)) i := by
  classical
  set D : Finset Nat := N.divisors.filter (fun m => 1 < m ∧ ¬ m.Prime) with hD
  have key := ae_frequently brentLaw (fun j => D.image (fun m => (j, m)))
    (by
      intro i j hij
      rw [Function.onFun, Finset.disjoint_left]
      intro x hx hx'
      obtain ⟨m, -, rfl⟩ := Finset.mem_image.1 hx
      obtain ⟨m', -, h⟩ := Finset.mem_image.1 hx'
      exact hij (congrArg Prod.fst h).symm)
    (fun im => {((im.2.minFac : Int), 0)}) (fun _ => MeasurableSet.singleton _)
    (∏ m ∈ D, brentLaw (0, m) {((m.minFac : Int), 0)})
    (by
      rw [Finset.prod_ne_zero_iff]
      intro m hm
      rw [hD, Finset.mem_filter, Nat.mem_divisors] at hm
      obtain ⟨⟨h1, h2⟩, h3, -⟩ := C147_lucky_call m hm.2.1 (odd_of_dvd hm.1.1 hN) hm.2.2
      unfold brentLaw
      rw [← Set.singleton_prod_singleton, Measure.prod_prod]
      exact mul_ne_zero (randintLaw_singleton_ne h1 h2) (randintLaw_singleton_ne le_rfl h3))
    (by
      intro j
      rw [Finset.prod_image (fun a _ b _ h => (congrArg Prod.snd h : a = b))]
      exact le_rfl)
  filter_upwards [key] with ω hω k
  obtain ⟨j, hj, h⟩ := hω k
  refine ⟨j, hj, fun m h1 h2 h3 => ?_⟩
  have := h (j, m) (Finset.mem_image.2 ⟨m, by
    rw [hD, Finset.mem_filter, Nat.mem_divisors]; exact ⟨⟨h1, by omega⟩, h2, h3⟩, rfl⟩)
  simpa using this

/-- C147: for every nonzero `n`, `factor(n)` returns with probability one: the random numbers drawn by
`pollard_rho_brent` being independent and uniform, the set of their values for which the call does not return has
measure zero.  (`C27_factor_partial` says what is returned.) -/
theorem C147_factor_returns (T : List Nat) (hT : IsPrimeTable T) (n : Int) (hn : n ≠ 0) :
    ∀ᵐ ω ∂(Measure.infinitePi brentLaw), ∃ L, factor T (rhoSplitter fun i m => ω (i, m)) n = some (.ok L) := by
  obtain ⟨l, hl, h7, hmem⟩ := hT.last
  obtain ⟨a1, a2, a3, a4, a5⟩ := smallFactors_spec T 0 l n.natAbs _ hT.sorted
    (fun p => by rw [hmem]; constructor
                 · rintro ⟨h1, h2⟩; exact ⟨h1, h2, h1.pos⟩
                 · rintro ⟨h1, h2, _⟩; exact ⟨h1, h2⟩)
    (by omega) (fun q hq h0 => absurd hq.pos (by omega)) (init_inv Nat.Prime n)
  set s := smallFactors T n.natAbs (if n < 0 then [(-1, 1)] else []) with hs
  have hodd : s.1 % 2 = 1 := by
    by_contra hc
    exact a5 2 Nat.prime_two (by omega) (Nat.dvd_of_mod_eq_zero (by omega))
  filter_upwards [ae_lucky s.1 hodd] with ω hω
  obtain ⟨fac, hfac⟩ := Option.isSome_iff_exists.1 (bigFactors_lucky hodd hω s.1 dvd_rfl a2 0 s.2)
  refine ⟨pySort fac pairLe, ?_⟩
  unfold factor
  rw [if_neg hn]
  simp only [← hs, hfac]

/-- C147 (violation of termination for all random choices): if all prime factors of `n` exceed the table and `n` is not
taken for a prime, then there are random numbers with which `factor(n)` does not return. -/
theorem C147_factor_endless_violation (T : List Nat) (hT : IsPrimeTable T) (l : Nat) (hl : T.getLast? = some l) (n : Nat)
    (hn : 1 < n) (hno : ∀ q, q.Prime → q ∣ n → l < q) (hp : isProbablePrime n = false) :
    factor T (rhoSplitter fun _ m => ((m : Int) - 6, 3)) n = none := by
  obtain ⟨l', hl', h7, hmem⟩ := hT.last
  rw [hl] at hl'; cases hl'
  have hc : ¬ n.Prime := fun hc => by rw [isProbablePrime_prime n hc] at hp; cases hp
  have hsq := Nat.minFac_sq_le_self (show 0 < n by omega) hc
  have hbig := hno n.minFac (Nat.minFac_prime (by omega)) (Nat.minFac_dvd n)
  have h7n : 7 ≤ n := by nlinarith
  have hs : smallFactors T n [] = (n, []) := by
    refine smallFactors_none _ _ _ hn fun p hp => ?_
    obtain ⟨h1, h2⟩ := (hmem p).1 hp
    exact ⟨fun h => absurd (hno p h1 h) (by omega), by nlinarith⟩
  have hcall : ∀ i, rhoSplitter (fun _ m => ((m : Int) - 6, 3)) i n = some n := by
    intro i
    obtain ⟨-, -, h⟩ := C147_unlucky_call n h7n
    unfold pollardRhoBrentCall randintOf at h
    rw [if_neg (by omega), if_neg (by omega)] at h
    dsimp only at h
    rw [Except.ok.injEq] at h
    unfold rhoSplitter
    dsimp only
    rw [h]; rfl
  have hsplit : ∀ i, splitLoop (rhoSplitter fun _ m => ((m : Int) - 6, 3)) i n = none := by
    intro i
    by_contra hne
    obtain ⟨r, hr⟩ := Option.ne_none_iff_exists'.1 hne
    refine splitLoop.partial_correctness (rhoSplitter fun _ m => ((m : Int) - 6, 3))
      (fun _ d _ => d ≠ n) ?_ i n r hr rfl
    rintro f ih i d r h rfl
    rw [if_neg (by rw [hp]; simp), hcall i] at h
    exact ih _ _ _ h rfl
  unfold factor
  rw [if_neg (by omega), if_neg (by omega), Int.natAbs_natCast]
  simp only [hs]
  rw [bigFactors, if_pos hn, if_neg (by rw [hp]; simp)]
  simp only [hcall, Option.bind_eq_bind, Option.bind_some, hsplit, Option.bind_none]

/-- With the real table, `factor(1000003 * 1000033)` returns with probability one, but not always. -/
example : (∀ᵐ ω ∂(Measure.infinitePi brentLaw), ∃ L, factor primeList (rhoSplitter fun i m => ω (i, m)) (1000003 * 1000033) =
      some (.ok L)) ∧
    factor primeList (rhoSplitter fun _ m => ((m : Int) - 6, 3)) ((1000003 * 1000033 : Nat) : Int) = none := by
  refine ⟨C147_factor_returns _ primeList_isPrimeTable _ (by norm_num), ?_⟩
  refine C147_factor_endless_violation _ primeList_isPrimeTable 999983 primeList_last _ (by norm_num) ?_ ?_
  · intro q hq hd
    have h1 : Nat.Prime 1000003 := by norm_num
    have h2 : Nat.Prime 1000033 := by norm_num
    rw [hq.dvd_mul, Nat.prime_dvd_prime_iff_eq hq h1, Nat.prime_dvd_prime_iff_eq hq h2] at hd
    omega
  · have h : mrFast (1000003 * 1000033) 2 = false := by decide +kernel
    rw [mrFast_eq _ _ (by norm_num)] at h
    by_contra hc
    rw [Bool.not_eq_false] at hc
    unfold isProbablePrime at hc
    rw [List.all_eq_true] at hc
    rw [hc 2 (by rw [List.mem_range'_1]; norm_num)] at h
    cases h

end Rosemary.Props
