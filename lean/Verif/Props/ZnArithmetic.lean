import Verif.Lemmas.Zn

/-!
# Properties C19, C23-C26: congruences, primitive roots, logarithms and orders
-/

namespace Rosemary.Props

open Rosemary.Core Rosemary.ArithFunctions Rosemary.Factorization Rosemary.Zn

/-! ## C19 -/

/-- `linear_congruence(a, b, n)` returns exactly the solutions of `a x ≡ b (mod n)` in
`[0, n)`, strictly increasing, and raises ValueError for `n < 2`. -/
theorem C19_linear_congruence (a b n : Int) :
    (n < 2 → linearCongruence a b n = .error .valueError) ∧
    (2 ≤ n → ∃ L, linearCongruence a b n = .ok L ∧ L.Pairwise (· < ·) ∧
      ∀ x, x ∈ L ↔ 0 ≤ x ∧ x < n ∧ n ∣ a * x - b) := by
  constructor
  · intro h; unfold linearCongruence; rw [if_pos h]
  intro hn
  unfold linearCongruence
  rw [if_neg (by omega)]
  obtain ⟨h1, h2⟩ := extGcd_spec a n
  dsimp only
  generalize (extGcd a n).1 = u at *
  generalize (extGcd a n).2.1 = v at *
  generalize (extGcd a n).2.2 = d at *
  have hda : d ∣ a := h2 ▸ Int.gcd_dvd_left ..
  have hdn : d ∣ n := h2 ▸ Int.gcd_dvd_right ..
  have hd0 : 0 < d := by
    rw [h2]; exact_mod_cast Int.gcd_pos_of_ne_zero_right a (by omega)
  obtain ⟨a', rfl⟩ := hda
  obtain ⟨n', rfl⟩ := hdn
  have hn' : 0 < n' := by
    by_contra hc
    nlinarith
  have hco : u * a' + v * n' = 1 := by
    have : d * (u * a' + v * n') = d * 1 := by linear_combination h1
    exact mul_left_cancel₀ hd0.ne' this
  rw [Int.fmod_eq_emod_of_nonneg _ hd0.le]
  by_cases hb : d ∣ b
  swap
  · rw [if_pos (by intro h; exact hb (Int.dvd_of_emod_eq_zero h))]
    refine ⟨[], rfl, List.Pairwise.nil, fun x => ?_⟩
    simp only [List.not_mem_nil, false_iff, not_and]
    rintro - - h
    apply hb
    have h3 : d ∣ d * a' * x - b := (Dvd.intro _ rfl).trans h
    have h4 : d ∣ d * a' * x := by rw [mul_assoc]; exact Dvd.intro _ rfl
    exact (Int.dvd_iff_dvd_of_dvd_sub h3).1 h4
  · rw [if_neg (by rw [Int.emod_eq_zero_of_dvd hb]; simp)]
    obtain ⟨b', rfl⟩ := hb
    rw [Int.fdiv_eq_ediv_of_nonneg _ hd0.le, mul_assoc, Int.mul_ediv_cancel_left _ hd0.ne']
    have hf : ∀ k : Nat, (b' * u + ((k : Int) * (d * n')).fdiv d).fmod (d * n') =
        (b' * u + k * n') % (d * n') := by
      intro k
      rw [Int.fmod_eq_emod_of_nonneg _ (by positivity), Int.fdiv_eq_ediv_of_nonneg _ hd0.le,
        mul_left_comm, Int.mul_ediv_cancel_left _ hd0.ne']
    simp only [hf]
    refine ⟨_, rfl, pySort_int_lt _ ?_, ?_⟩
    · refine List.Nodup.map_on ?_ List.nodup_range
      intro x hx y hy hxy
      rw [List.mem_range] at hx hy
      have h3 : d * n' ∣ (b' * u + x * n') - (b' * u + y * n') :=
        Int.ModEq.dvd (n := d * n') (a := b' * u + y * n') hxy.symm
      have h4 : d * n' ∣ ((x : Int) - y) * n' := by
        have : (b' * u + x * n') - (b' * u + y * n') = ((x : Int) - y) * n' := by ring
        rwa [this] at h3
      have h5 : d ∣ (x : Int) - y := Int.dvd_of_mul_dvd_mul_right hn'.ne' h4
      have h6 := Int.eq_zero_of_abs_lt_dvd h5 (by rw [abs_lt]; omega)
      omega
    · intro x
      rw [mem_pySort, List.mem_map]
      constructor
      · rintro ⟨k, -, rfl⟩
        refine ⟨Int.emod_nonneg _ (by positivity), Int.emod_lt_of_pos _ (by positivity), ?_⟩
        have h3 : (b' * u + k * n') % (d * n') = b' * u + k * n' - d * n' * ((b' * u + k * n') / (d * n')) := by
          rw [Int.emod_def]
        rw [h3]
        refine ⟨a' * k - d * a' * ((b' * u + k * n') / (d * n')) - b' * v, ?_⟩
        linear_combination (d * b') * hco
      · rintro ⟨h3, h4, h5⟩
        have h6 : n' ∣ a' * x - b' := by
          have : d * a' * x - d * b' = d * (a' * x - b') := by ring
          rw [this] at h5
          exact Int.dvd_of_mul_dvd_mul_left hd0.ne' h5
        obtain ⟨w, hw⟩ := h6
        -- x = b' u + n' j
        have h7 : x - b' * u = n' * (u * w + v * x) := by
          linear_combination u * hw - x * hco
        set j := u * w + v * x with hj
        refine ⟨(j % d).toNat, ?_, ?_⟩
        · rw [List.mem_range]
          have := Int.emod_lt_of_pos j hd0
          have := Int.emod_nonneg j hd0.ne'
          omega
        · rw [Int.toNat_of_nonneg (Int.emod_nonneg j hd0.ne')]
          have h8 : b' * u + j % d * n' = x + d * n' * (-(j / d)) := by
            rw [Int.emod_def]; linear_combination -h7
          rw [h8, Int.add_mul_emod_self_left, Int.emod_eq_of_lt h3 h4]

example : linearCongruence 10 6 12 = .ok [3, 9] ∧ linearCongruence 12 9 15 = .ok [2, 7, 12] ∧
    linearCongruence (-10) 3 12 = .ok [] := by decide +kernel

/-! ## C23 -/

/-- `a` generates the units modulo `n`: it is coprime to `n` and every integer coprime to `n` is
congruent to a power of `a`. -/
def GeneratesUnits (a : Int) (n : Nat) : Prop :=
  Int.gcd a n = 1 ∧ ∀ x : Int, Int.gcd x n = 1 → ∃ k : Nat, (n : Int) ∣ a ^ k - x

theorem generatesUnits_iff {a : Int} {n : Nat} (hn : 2 ≤ n) :
    GeneratesUnits a n ↔ ∃ u : (ZMod n)ˣ, (u : ZMod n) = a ∧ ∀ x, x ∈ Subgroup.zpowers u := by
  haveI : NeZero n := ⟨by omega⟩
  constructor
  · rintro ⟨h1, h2⟩
    obtain ⟨u, hu⟩ := isUnit_cast.2 h1
    refine ⟨u, hu, fun x => ?_⟩
    obtain ⟨y, -, -, hy⟩ := exists_rep (by omega : 0 < n) (x : ZMod n)
    obtain ⟨k, hk⟩ := h2 y (isUnit_cast.1 (hy ▸ x.isUnit))
    refine ⟨k, ?_⟩
    apply Units.ext
    have := cast_eq_iff_dvd.2 hk
    push_cast at this
    rw [← hy, ← this, ← hu]
    simp
  · rintro ⟨u, hu, h⟩
    refine ⟨isUnit_cast.1 (hu ▸ u.isUnit), fun x hx => ?_⟩
    obtain ⟨w, hw⟩ := isUnit_cast.2 hx
    obtain ⟨k, hk⟩ := (mem_powers_iff_mem_zpowers).2 (h w)
    refine ⟨k, cast_eq_iff_dvd.1 ?_⟩
    push_cast
    rw [← hu, ← hw, ← hk]
    simp

theorem generates_iff_order {n : Nat} (hn : 2 ≤ n) (u : (ZMod n)ˣ) :
    (∀ x, x ∈ Subgroup.zpowers u) ↔ orderOf u = n.totient := by
  haveI : NeZero n := ⟨by omega⟩
  rw [← ZMod.card_units_eq_totient, ← Nat.card_eq_fintype_card]
  constructor
  · exact orderOf_eq_card_of_forall_mem_zpowers
  · intro h x
    have h1 : Nat.card (Subgroup.zpowers u) = Nat.card (ZMod n)ˣ := by rw [Nat.card_zpowers, h]
    rw [(Subgroup.card_eq_iff_eq_top _).1 h1]
    trivial

theorem noTrivialPower_iff {a : Int} {n : Nat} (hn : 2 ≤ n) (u : (ZMod n)ˣ) (hu : (u : ZMod n) = a)
    (phiFac : List (Nat × Nat)) (hf : FactorsTo phiFac n.totient) :
    noTrivialPower a n n.totient (primeDivisors phiFac) = true ↔ orderOf u = n.totient := by
  obtain ⟨-, hp⟩ := C28_prime_divisors phiFac hf.primes hf.pos
  rw [hf.prod] at hp
  have hpow : ∀ k : Nat, pyPow a k n = 1 ↔ u ^ k = 1 := by
    intro k
    rw [pyPow_eq_one_iff _ _ hn, ← hu, ← Units.val_pow_eq_pow_val, Units.val_eq_one]
  have htot : u ^ n.totient = 1 := ZMod.pow_totient u
  have hpos : 0 < n.totient := Nat.totient_pos.2 (by omega)
  unfold noTrivialPower
  simp only [List.all_eq_true, bne_iff_ne, ne_eq, hpow]
  constructor
  · intro h
    refine orderOf_eq_of_pow_and_pow_div_prime hpos htot ?_
    intro q hq hqd
    exact h q ((hp q).2 ⟨hq, hqd⟩)
  · intro h q hq h1
    obtain ⟨hq1, hq2⟩ := (hp q).1 hq
    have := orderOf_dvd_of_pow_eq_one h1
    rw [h] at this
    have h3 := Nat.le_of_dvd (Nat.div_pos (Nat.le_of_dvd hpos hq2) hq1.pos) this
    have := Nat.div_lt_self hpos hq1.one_lt
    omega

theorem isCyclic_of_generates {a : Int} {n : Nat} (hn : 2 ≤ n) (h : GeneratesUnits a n) :
    IsCyclic (ZMod n)ˣ := by
  obtain ⟨u, -, h⟩ := (generatesUnits_iff hn).1 h
  exact ⟨u, h⟩

theorem four_dvd_not_cyclic {n : Nat} (h4 : n % 4 = 0) (h : 4 < n) : ¬ IsCyclic (ZMod n)ˣ := by
  rw [ZMod.isCyclic_units_iff]
  rintro (h | h | h | h | ⟨p, m, hp, hodd, hm, h | h⟩)
  · omega
  · omega
  · omega
  · omega
  · have := (hodd.pow : Odd (p ^ m))
    rw [← h, Nat.odd_iff] at this; omega
  · have := (hodd.pow : Odd (p ^ m))
    rw [Nat.odd_iff] at this; omega

/-- `is_primitive_root(a, n)` decides whether `a` generates the units modulo `n`; it raises
ValueError for `n ≤ 1`.  `phiFac` is the factorization of `euler_phi(n)` that the code computes. -/
theorem C23_is_primitive_root (a : Int) (n : Nat) (phiFac : List (Nat × Nat))
    (hf : FactorsTo phiFac n.totient) :
    (n ≤ 1 → isPrimitiveRoot a n n.totient (primeDivisors phiFac) = .error .valueError) ∧
    (2 ≤ n → ∃ b, isPrimitiveRoot a n n.totient (primeDivisors phiFac) = .ok b ∧
      (b = true ↔ GeneratesUnits a n)) := by
  constructor
  · intro h; unfold isPrimitiveRoot; rw [if_pos h]
  intro hn
  unfold isPrimitiveRoot
  rw [if_neg (by omega)]
  split
  · rename_i h4
    refine ⟨false, rfl, ?_⟩
    simp only [Bool.false_eq_true, false_iff]
    intro h
    exact four_dvd_not_cyclic h4.2 h4.1 (isCyclic_of_generates hn h)
  · rw [gcd_eq]
    split
    · rename_i hg
      refine ⟨false, rfl, ?_⟩
      simp only [Bool.false_eq_true, false_iff]
      rintro ⟨h, -⟩
      exact hg (by exact_mod_cast h)
    · rename_i hg
      push Not at hg
      have hg' : Int.gcd a n = 1 := by exact_mod_cast hg
      obtain ⟨u, hu⟩ := isUnit_cast.2 hg'
      refine ⟨_, rfl, ?_⟩
      rw [noTrivialPower_iff hn u hu phiFac hf, ← generates_iff_order hn, generatesUnits_iff hn]
      constructor
      · intro h; exact ⟨u, hu, h⟩
      · rintro ⟨w, hw, h⟩
        have : w = u := Units.ext (hw.trans hu.symm)
        rwa [← this]

example : isPrimitiveRoot 2 11 10 [2, 5] = .ok true ∧ isPrimitiveRoot 3 11 10 [2, 5] = .ok false ∧
    isPrimitiveRoot 3 8 4 [2] = .ok false ∧ isPrimitiveRoot 5 9 6 [2, 3] = .ok true := by
  decide +kernel

theorem searchRoot_spec {n : Nat} (hn : 2 ≤ n) {phiFac : List (Nat × Nat)}
    (hf : FactorsTo phiFac n.totient) : ∀ (k g : Nat),
    (∃ r, searchRoot n n.totient (primeDivisors phiFac) g k = .ok (some r) ∧ g ≤ r ∧ r < g + k ∧
      GeneratesUnits r n ∧ ∀ j, g ≤ j → j < r → ¬ GeneratesUnits j n) ∨
    (searchRoot n n.totient (primeDivisors phiFac) g k = .ok none ∧
      ∀ j, g ≤ j → j < g + k → ¬ GeneratesUnits j n) := by
  intro k
  induction k with
  | zero => intro g; right; exact ⟨rfl, by intro j h1 h2; omega⟩
  | succ k ih =>
    intro g
    obtain ⟨b, hb, hbi⟩ := (C23_is_primitive_root g n phiFac hf).2 hn
    simp only [searchRoot, hb]
    cases b with
    | true =>
      left
      exact ⟨g, rfl, le_refl _, by omega, hbi.1 rfl, by intro j h1 h2; omega⟩
    | false =>
      have hng : ¬ GeneratesUnits g n := fun h => by simpa using hbi.2 h
      rcases ih (g + 1) with ⟨r, h1, h2, h3, h4, h5⟩ | ⟨h1, h2⟩
      · left
        refine ⟨r, h1, by omega, by omega, h4, ?_⟩
        intro j hj1 hj2
        rcases Nat.eq_or_lt_of_le hj1 with rfl | hj
        · exact hng
        · exact h5 j hj hj2
      · right
        refine ⟨h1, ?_⟩
        intro j hj1 hj2
        rcases Nat.eq_or_lt_of_le hj1 with rfl | hj
        · exact hng
        · exact h2 j hj (by omega)

theorem length_eq_primeFactors {fac : List (Nat × Nat)} {n : Nat} (h : FactorsTo fac n) :
    fac.length = n.primeFactors.card := by
  have h1 : (fac.map Prod.fst).toFinset = n.primeFactors := by
    ext q
    have := (C28_prime_divisors fac h.primes h.pos).2 q
    rw [h.prod] at this
    have hn : n ≠ 0 := by rw [← h.prod]; exact (facProd_pos h.primes.prime).ne'
    rw [List.mem_toFinset, Nat.mem_primeFactors]
    unfold primeDivisors at this
    rw [this]
    tauto
  rw [← h1, List.toFinset_card_of_nodup h.primes.nodup, List.length_map]

/-- The early exits of `primitive_root` fire exactly when the unit group is not cyclic. -/
theorem rejects_iff {n : Nat} (hn : 2 ≤ n) {fac : List (Nat × Nat)} (hfac : FactorsTo fac n) :
    ((n % 4 = 0 ∧ n ≠ 4) ∨ fac.length > 2 ∨ (n % 2 = 1 ∧ fac.length > 1)) ↔ ¬ IsCyclic (ZMod n)ˣ := by
  constructor
  · intro hor hcyc
    rw [length_eq_primeFactors hfac] at hor
    by_cases h4 : n % 4 = 0 ∧ n ≠ 4
    · exact four_dvd_not_cyclic h4.1 (by omega) hcyc
    rw [ZMod.isCyclic_units_iff] at hcyc
    have hc1 : ∀ p m : Nat, p.Prime → 1 ≤ m → (p ^ m).primeFactors.card = 1 := by
      intro p m hp hm
      rw [Nat.primeFactors_prime_pow (by omega) hp]; simp
    rcases hcyc with h | h | rfl | rfl | ⟨p, m, hp, hodd, hm, h | h⟩
    · omega
    · omega
    · have := hc1 2 1 Nat.prime_two (le_refl _); norm_num at this hor
    · have := hc1 2 2 Nat.prime_two (by norm_num); norm_num at this hor; omega
    · have := hc1 p m hp (by omega); rw [← h] at this; omega
    · have h2 := hc1 p m hp (by omega)
      have h3 : n.primeFactors.card = 2 := by
        rw [h, Nat.primeFactors_mul (by norm_num) (pow_ne_zero _ hp.ne_zero),
          Finset.card_union_of_disjoint, h2, Nat.Prime.primeFactors Nat.prime_two]
        · simp
        · rw [Nat.disjoint_primeFactors (by norm_num) (pow_ne_zero _ hp.ne_zero)]
          exact (Nat.coprime_two_left).2 (hodd.pow)
      omega
  · intro hc
    by_contra hor
    apply hc
    push Not at hor
    obtain ⟨h1, h2, h3⟩ := hor
    rw [ZMod.isCyclic_units_iff]
    obtain ⟨f1, f2, f3⟩ := hfac
    match fac, h2 with
    | [], _ => simp at f3; omega
    | [(p, e)], _ =>
      simp at f3
      have hp := f1.prime (p, e) (by simp)
      have he := f2 (p, e) (by simp)
      dsimp only at hp he
      rcases hp.eq_two_or_odd' with rfl | hodd
      · by_cases he2 : 2 ≤ e
        · have : 4 ∣ n := by rw [← f3]; exact pow_dvd_pow 2 he2
          right; right; right; left; exact h1 (by omega)
        · have : e = 1 := by omega
          subst this; right; right; left; omega
      · right; right; right; right
        exact ⟨p, e, hp, hodd, by omega, Or.inl f3.symm⟩
    | [(p, e), (q, f)], _ =>
      simp at f3
      have hp := f1.prime (p, e) (by simp)
      have he := f2 (p, e) (by simp)
      have hq := f1.prime (q, f) (by simp)
      have hf := f2 (q, f) (by simp)
      have hpq : p ≠ q := by have := f1.nodup; simp at this; exact this
      dsimp only at hp he hq hf
      have heven : n % 2 = 0 := by
        by_contra hc
        have := h3 (by omega)
        simp at this
      have key : ∀ p e q f : Nat, p.Prime → 1 ≤ e → q.Prime → 1 ≤ f → p ≠ q → p = 2 → p ^ e * q ^ f = n →
          n = 0 ∨ n = 1 ∨ n = 2 ∨ n = 4 ∨ ∃ p m, p.Prime ∧ Odd p ∧ 1 ≤ m ∧ (n = p ^ m ∨ n = 2 * p ^ m) := by
        intro p e q f hp he hq hf hpq h2 hprod
        subst h2
        have hodd : Odd q := hq.odd_of_ne_two (Ne.symm hpq)
        by_cases he2 : 2 ≤ e
        · have h4 : 4 ∣ n := by rw [← hprod]; exact Dvd.dvd.mul_right (pow_dvd_pow 2 he2) _
          right; right; right; left; exact h1 (by omega)
        · have : e = 1 := by omega
          subst this
          right; right; right; right
          exact ⟨q, f, hq, hodd, hf, Or.inr (by rw [← hprod]; ring)⟩
      have h2n : 2 ∣ p ^ e * q ^ f := by rw [f3]; omega
      rcases (Nat.prime_two.dvd_mul).1 h2n with h | h
      · have := Nat.prime_two.dvd_of_dvd_pow h
        have := (Nat.prime_dvd_prime_iff_eq Nat.prime_two hp).1 this
        simpa using key p e q f hp he hq hf hpq this.symm f3
      · have := Nat.prime_two.dvd_of_dvd_pow h
        have := (Nat.prime_dvd_prime_iff_eq Nat.prime_two hq).1 this
        simpa using key q f p e hq hf hp he hpq.symm this.symm (by rw [mul_comm]; exact f3)

/-- `primitive_root(n)` for `n ≥ 2` returns the least positive generator of the units modulo
`n` when there is one, and raises ValueError otherwise. -/
theorem C23_primitive_root (n : Nat) (hn : 2 ≤ n) (fac phiFac : List (Nat × Nat))
    (hfac : FactorsTo fac n) (hf : FactorsTo phiFac n.totient) :
    ((∃ a, GeneratesUnits a n) → ∃ g : Nat, primitiveRoot n fac phiFac = .ok (some g) ∧ 1 ≤ g ∧ g < n ∧
      GeneratesUnits g n ∧ ∀ j : Nat, 1 ≤ j → j < g → ¬ GeneratesUnits j n) ∧
    ((¬ ∃ a, GeneratesUnits a n) → primitiveRoot n fac phiFac = .error .valueError) := by
  have hcyc : (∃ a, GeneratesUnits a n) ↔ IsCyclic (ZMod n)ˣ := by
    constructor
    · rintro ⟨a, ha⟩; exact isCyclic_of_generates hn ha
    · rintro ⟨u, hu⟩
      obtain ⟨y, -, -, hy⟩ := exists_rep (by omega : 0 < n) (u : ZMod n)
      exact ⟨y, (generatesUnits_iff hn).2 ⟨u, hy.symm, hu⟩⟩
  have hrej := rejects_iff hn hfac
  have hne : fac ≠ [] := by
    rintro rfl
    have := hfac.prod
    simp at this; omega
  unfold primitiveRoot
  constructor
  · intro hex
    have hc := hcyc.1 hex
    have hno : ¬ ((n % 4 = 0 ∧ n ≠ 4) ∨ fac.length > 2 ∨ (n % 2 = 1 ∧ fac.length > 1)) :=
      fun h => hrej.1 h hc
    rw [if_neg (fun h => hno (Or.inl h)), if_neg (fun h => hno (Or.inr (Or.inl h))),
      if_neg (fun h => hno (Or.inr (Or.inr h))), if_neg hne,
      C29_euler_phi n fac hfac.isFactorization]
    rcases searchRoot_spec hn hf (n - 1) 1 with ⟨r, h1, h2, h3, h4, h5⟩ | ⟨h1, h2⟩
    · exact ⟨r, h1, h2, by omega, h4, h5⟩
    · exfalso
      obtain ⟨u, hu⟩ := hc
      obtain ⟨y, h3, h4, hy⟩ := exists_rep (by omega : 0 < n) (u : ZMod n)
      have hgen : GeneratesUnits y n := (generatesUnits_iff hn).2 ⟨u, hy.symm, hu⟩
      have hy0 : y ≠ 0 := by
        rintro rfl
        have := hgen.1
        simp at this; omega
      refine h2 y.toNat (by omega) (by omega) ?_
      rw [Int.toNat_of_nonneg h3]
      exact hgen
  · intro hex
    have hc : ¬ IsCyclic (ZMod n)ˣ := fun h => hex (hcyc.2 h)
    rcases hrej.2 hc with h | h | h
    · rw [if_pos h]
    · rw [if_pos h, ite_self]
    · rw [if_pos h, ite_self, ite_self]

example : FactorsTo [(2, 1), (7, 1)] 14 ∧ FactorsTo [(2, 1), (3, 1)] (Nat.totient 14) ∧
    primitiveRoot 14 [(2, 1), (7, 1)] [(2, 1), (3, 1)] = .ok (some 3) ∧
    primitiveRoot 12 [(2, 2), (3, 1)] [(2, 2)] = .error .valueError ∧
    primitiveRoot 1 [] [] = .error .indexError :=
  ⟨⟨⟨by decide, by decide⟩, by decide, by decide⟩, ⟨⟨by decide, by decide⟩, by decide, by decide⟩,
    by decide +kernel, by decide +kernel, by decide +kernel⟩

/-! ## C24 -/

theorem powersLoop_eq (h : Int) {p : Nat} (hp : 0 < p) : ∀ (k : Nat) (val : Int), 0 ≤ val → val < p →
    powersLoop h p k val = (List.range k).map (fun j : Nat => (val * h ^ j).fmod p) := by
  intro k
  induction k with
  | zero => intro val _ _; rfl
  | succ k ih =>
    intro val h0 h1
    rw [powersLoop, ih _ (fmod_nonneg _ hp) (fmod_lt _ hp), List.range_succ_eq_map, List.map_cons,
      List.map_map]
    congr 1
    · rw [pow_zero, mul_one, fmod_nat, Int.emod_eq_of_lt h0 h1]
    · apply List.map_congr_left
      intro j _
      simp only [Function.comp]
      apply eq_of_cast (fmod_nonneg _ hp) (fmod_lt _ hp) (fmod_nonneg _ hp) (fmod_lt _ hp)
      rw [cast_fmod, cast_fmod]
      push_cast
      rw [cast_fmod]
      push_cast
      rw [Nat.succ_eq_add_one]
      ring

/-- The list of powers of an element `h` of order `d` modulo the prime `p`. -/
theorem nthRootsOfUnity_spec (n p : Nat) (hp : p.Prime) (hn : 1 ≤ n) (g : Int) (hg : GeneratesUnits g p) :
    (nthRootsOfUnity n p g).Pairwise (· < ·) ∧
    ∀ x : Int, x ∈ nthRootsOfUnity n p g ↔ 0 ≤ x ∧ x < p ∧ (x : ZMod p) ^ n = 1 := by
  haveI : Fact p.Prime := ⟨hp⟩
  have hp2 := hp.two_le
  unfold nthRootsOfUnity
  split
  · rename_i h2
    subst h2
    refine ⟨by simp, fun x => ?_⟩
    simp only [List.mem_singleton]
    constructor
    · rintro rfl; simp
    · rintro ⟨h1, h2, h3⟩
      have hx : x = 0 ∨ x = 1 := by push_cast at h2; omega
      rcases hx with rfl | rfl
      · simp [show n ≠ 0 by omega] at h3
      · rfl
  · rename_i hne
    dsimp only
    obtain ⟨u, hu, hgen⟩ := (generatesUnits_iff hp2).1 hg
    have hord := (generates_iff_order hp2 u).1 hgen
    rw [Nat.totient_prime hp] at hord
    have hp1 : 0 < p - 1 := by omega
    obtain ⟨d, hd⟩ : ∃ d, d = Nat.gcd n (p - 1) := ⟨_, rfl⟩
    rw [← hd]
    have hd1 : d ∣ p - 1 := hd ▸ Nat.gcd_dvd_right ..
    have hd2 : d ∣ n := hd ▸ Nat.gcd_dvd_left ..
    obtain ⟨q, hq⟩ := hd1
    have hd0 : 0 < d := Nat.pos_of_ne_zero (by rintro rfl; omega)
    have hq0 : 0 < q := Nat.pos_of_ne_zero (by rintro rfl; omega)
    have hdiv : (p - 1) / d = q := by rw [hq, Nat.mul_div_cancel_left _ hd0]
    rw [hdiv, powersLoop_eq _ hp.pos _ _ (by norm_num) (by omega)]
    have hcast : ∀ j : Nat, ((((1 : Int) * pyPow g q p ^ j).fmod p : Int) : ZMod p) =
        ((u ^ (q * j) : (ZMod p)ˣ) : ZMod p) := by
      intro j
      rw [cast_fmod]
      push_cast
      rw [cast_pyPow, hu, one_mul, pow_mul]
    constructor
    · apply pySort_int_lt
      refine List.Nodup.map_on ?_ List.nodup_range
      intro x hx y hy hxy
      rw [List.mem_range] at hx hy
      have h1 := congrArg (fun z : Int => (z : ZMod p)) hxy
      rw [hcast, hcast] at h1
      have h2 := Units.ext h1
      have h3 : q * x = q * y := by
        refine pow_injOn_Iio_orderOf ?_ ?_ h2
        · rw [Set.mem_Iio, hord, hq]; nlinarith
        · rw [Set.mem_Iio, hord, hq]; nlinarith
      exact Nat.eq_of_mul_eq_mul_left hq0 h3
    · intro x
      rw [mem_pySort, List.mem_map]
      constructor
      · rintro ⟨j, -, rfl⟩
        refine ⟨fmod_nonneg _ hp.pos, fmod_lt _ hp.pos, ?_⟩
        rw [hcast, ← Units.val_pow_eq_pow_val, ← pow_mul]
        obtain ⟨n', rfl⟩ := hd2
        have : q * j * (d * n') = orderOf u * (j * n') := by rw [hord, hq]; ring
        rw [this, pow_mul, pow_orderOf_eq_one, one_pow, Units.val_one]
      · rintro ⟨h0, h1, h2⟩
        have hxu : IsUnit (x : ZMod p) := IsUnit.of_pow_eq_one h2 (by omega)
        obtain ⟨w, hw⟩ := hxu
        obtain ⟨k, hk⟩ := (mem_powers_iff_mem_zpowers).2 (hgen w)
        dsimp only at hk
        have hwn : w ^ n = 1 := by
          apply Units.ext; rw [Units.val_pow_eq_pow_val, hw, h2, Units.val_one]
        have hwp : w ^ (p - 1) = 1 := by rw [← hk, ← pow_mul, mul_comm, pow_mul, ← hord, pow_orderOf_eq_one, one_pow]
        have hwd : w ^ d = 1 := by rw [hd, pow_gcd_eq_one]; exact ⟨hwn, hwp⟩
        have hdvd : p - 1 ∣ k * d := by
          rw [← hord]; apply orderOf_dvd_of_pow_eq_one; rw [pow_mul, hk, hwd]
        rw [hq, mul_comm k d] at hdvd
        obtain ⟨j, rfl⟩ := Nat.dvd_of_mul_dvd_mul_left hd0 hdvd
        refine ⟨j % d, List.mem_range.2 (Nat.mod_lt _ hd0), ?_⟩
        apply eq_of_cast (fmod_nonneg _ hp.pos) (fmod_lt _ hp.pos) h0 h1
        rw [hcast, ← hw, ← hk]
        congr 1
        rw [pow_eq_pow_iff_modEq, hord, hq, mul_comm d q]
        exact (Nat.mod_modEq j d).mul_left' q

/-- `nth_roots_of_unity_mod_p(n, p, g)` returns the strictly increasing list of all `x` in
`[0, p)` with `x^n ≡ 1 (mod p)`, for every prime `p`, primitive root `g` and `n ≥ 1`. -/
theorem C24_nth_roots_of_unity (n p : Nat) (hp : p.Prime) (hn : 1 ≤ n) (g : Int)
    (hg : GeneratesUnits g p) :
    (nthRootsOfUnity n p g).Pairwise (· < ·) ∧
    ∀ x : Int, x ∈ nthRootsOfUnity n p g ↔ 0 ≤ x ∧ x < p ∧ (p : Int) ∣ x ^ n - 1 := by
  obtain ⟨h1, h2⟩ := nthRootsOfUnity_spec n p hp hn g hg
  refine ⟨h1, fun x => ?_⟩
  rw [h2, ← cast_eq_iff_dvd]
  push_cast
  rfl

/-- `nth_roots_of_minus1_mod_p(n, p, g)` returns the strictly increasing list of all `x` in
`[0, p)` with `x^n ≡ -1 (mod p)`. -/
theorem C24_nth_roots_of_minus1 (n p : Nat) (hp : p.Prime) (hn : 1 ≤ n) (g : Int)
    (hg : GeneratesUnits g p) :
    (nthRootsOfMinus1 n p g).Pairwise (· < ·) ∧
    ∀ x : Int, x ∈ nthRootsOfMinus1 n p g ↔ 0 ≤ x ∧ x < p ∧ (p : Int) ∣ x ^ n + 1 := by
  haveI : Fact p.Prime := ⟨hp⟩
  have hp2 := hp.two_le
  have hiff : ∀ x : Int, (p : Int) ∣ x ^ n + 1 ↔ (x : ZMod p) ^ n = -1 := by
    intro x
    have : x ^ n + 1 = x ^ n - (-1) := by ring
    rw [this, ← cast_eq_iff_dvd]
    push_cast
    rfl
  simp only [hiff]
  unfold nthRootsOfMinus1
  split
  · rename_i h2
    subst h2
    refine ⟨by simp, fun x => ?_⟩
    simp only [List.mem_singleton]
    constructor
    · rintro rfl; refine ⟨by norm_num, by norm_num, ?_⟩; simp
    · rintro ⟨h1, h2, h3⟩
      have hx : x = 0 ∨ x = 1 := by push_cast at h2; omega
      rcases hx with rfl | rfl
      · simp [show n ≠ 0 by omega] at h3
      · rfl
  · rename_i hne
    dsimp only
    obtain ⟨u, hu, hgen⟩ := (generatesUnits_iff hp2).1 hg
    have hord := (generates_iff_order hp2 u).1 hgen
    rw [Nat.totient_prime hp] at hord
    have hp1 : 0 < p - 1 := by omega
    have hpodd : p % 2 = 1 := by rcases hp.eq_two_or_odd with h | h <;> omega
    obtain ⟨d, hd⟩ : ∃ d, d = Nat.gcd n (p - 1) := ⟨_, rfl⟩
    rw [← hd]
    have hd1 : d ∣ p - 1 := hd ▸ Nat.gcd_dvd_right ..
    have hd2 : d ∣ n := hd ▸ Nat.gcd_dvd_left ..
    obtain ⟨q, hq⟩ := hd1
    obtain ⟨n', hn'⟩ := hd2
    have hd0 : 0 < d := Nat.pos_of_ne_zero (by rintro rfl; omega)
    have hq0 : 0 < q := Nat.pos_of_ne_zero (by rintro rfl; omega)
    have hdiv : (p - 1) / d = q := by rw [hq, Nat.mul_div_cancel_left _ hd0]
    have hco : Nat.Coprime n' q := by
      have h1 : d * Nat.gcd n' q = d * 1 := by
        rw [← Nat.gcd_mul_left, ← hn', ← hq, ← hd, mul_one]
      exact Nat.eq_of_mul_eq_mul_left hd0 h1
    rw [hdiv]
    -- u^((p-1)/2) = -1
    have hneg : (u : ZMod p) ^ ((p - 1) / 2) = -1 := by
      have h1 : ((u : ZMod p) ^ ((p - 1) / 2)) ^ 2 = 1 := by
        rw [← pow_mul, Nat.div_mul_cancel (by omega), ← hord, ← Units.val_pow_eq_pow_val,
          pow_orderOf_eq_one, Units.val_one]
      rcases mul_self_eq_one_iff.1 ((sq _).symm.trans h1) with h | h
      · exfalso
        have h3 : u ^ ((p - 1) / 2) = 1 := by
          apply Units.ext; rw [Units.val_pow_eq_pow_val, h, Units.val_one]
        have := orderOf_dvd_of_pow_eq_one h3
        rw [hord] at this
        have := Nat.le_of_dvd (by omega) this
        omega
      · exact h
    by_cases hqe : q % 2 = 0
    swap
    · rw [if_pos hqe]
      refine ⟨List.Pairwise.nil, fun x => ?_⟩
      simp only [List.not_mem_nil, false_iff]
      rintro ⟨-, -, h3⟩
      have hx2 : (x : ZMod p) ^ (n * 2) = 1 := by rw [pow_mul, h3]; ring
      obtain ⟨w, hw⟩ := IsUnit.of_pow_eq_one hx2 (by omega)
      obtain ⟨k, hk⟩ := (mem_powers_iff_mem_zpowers).2 (hgen w)
      dsimp only at hk
      have h4 : u ^ (k * n) = u ^ ((p - 1) / 2) := by
        apply Units.ext
        rw [pow_mul, hk, Units.val_pow_eq_pow_val, hw, h3, Units.val_pow_eq_pow_val, hneg]
      rw [pow_eq_pow_iff_modEq, hord] at h4
      have h5 : k * n ≡ (p - 1) / 2 [MOD d] := h4.of_dvd ⟨q, hq⟩
      have h6 : d ∣ (p - 1) / 2 := by
        have h7 : d ∣ k * n := by rw [hn']; exact Dvd.intro _ (by ring : d * (k * n') = _)
        exact (Nat.modEq_zero_iff_dvd).1 (h5.symm.trans ((Nat.modEq_zero_iff_dvd).2 h7))
      obtain ⟨j, hj⟩ := h6
      have h8 : d * q = d * (2 * j) := by
        rw [← hq]
        have : (p - 1) = 2 * ((p - 1) / 2) := by omega
        rw [this, hj]; ring
      have := Nat.eq_of_mul_eq_mul_left hd0 h8
      omega
    · rw [if_neg (by omega)]
      obtain ⟨h, hh⟩ : ∃ h, q = 2 * h := ⟨q / 2, by omega⟩
      have hdiv2 : (p - 1) / (2 * d) = h := by
        rw [hq, hh, show d * (2 * h) = (2 * d) * h by ring, Nat.mul_div_cancel_left _ (by omega)]
      rw [hdiv2]
      have hn'odd : Odd n' := by
        rw [← Nat.not_even_iff_odd]
        intro he
        have h2 : 2 ∣ Nat.gcd n' q := Nat.dvd_gcd he.two_dvd (by omega)
        rw [hco] at h2
        omega
      have hroot : ((pyPow g h p : Int) : ZMod p) ^ n = -1 := by
        rw [cast_pyPow, ← hu, ← pow_mul]
        have : h * n = (p - 1) / 2 * n' := by
          rw [hn', hq, hh, show d * (2 * h) = 2 * (d * h) by ring, Nat.mul_div_cancel_left _ (by norm_num)]
          ring
        rw [this, pow_mul, hneg, hn'odd.neg_one_pow]
      have hroot0 : ((pyPow g h p : Int) : ZMod p) ≠ 0 := by
        intro h0
        rw [h0, zero_pow (by omega)] at hroot
        have : (1 : ZMod p) = 0 := by linear_combination hroot
        exact one_ne_zero this
      obtain ⟨u1, u2⟩ := nthRootsOfUnity_spec n p hp hn g hg
      constructor
      · apply pySort_int_lt
        refine List.Nodup.map_on ?_ (u1.imp (fun h => ne_of_lt h))
        intro x hx y hy hxy
        obtain ⟨x1, x2, -⟩ := (u2 x).1 hx
        obtain ⟨y1, y2, -⟩ := (u2 y).1 hy
        apply eq_of_cast x1 x2 y1 y2
        have h1 := congrArg (fun z : Int => (z : ZMod p)) hxy
        rw [cast_fmod, cast_fmod] at h1
        push_cast at h1
        exact mul_left_cancel₀ hroot0 h1
      · intro x
        rw [mem_pySort, List.mem_map]
        constructor
        · rintro ⟨y, hy, rfl⟩
          obtain ⟨-, -, y3⟩ := (u2 y).1 hy
          refine ⟨fmod_nonneg _ hp.pos, fmod_lt _ hp.pos, ?_⟩
          rw [cast_fmod]
          push_cast
          rw [mul_pow, hroot, y3, mul_one]
        · rintro ⟨h0, h1, h2⟩
          obtain ⟨y, y1, y2, y3⟩ := exists_rep hp.pos ((x : ZMod p) * ((pyPow g h p : Int) : ZMod p)⁻¹)
          refine ⟨y, (u2 y).2 ⟨y1, y2, ?_⟩, ?_⟩
          · rw [y3, mul_pow, h2, inv_pow, hroot, neg_mul, one_mul, inv_neg, inv_one, neg_neg]
          · apply eq_of_cast (fmod_nonneg _ hp.pos) (fmod_lt _ hp.pos) h0 h1
            rw [cast_fmod]
            push_cast
            rw [y3]
            field_simp

example : nthRootsOfUnity 4 101 2 = [1, 10, 91, 100] ∧ nthRootsOfMinus1 5 11 2 = [2, 6, 7, 8, 10] ∧
    nthRootsOfMinus1 2 7 3 = [] := by decide +kernel

/-! ## C25 -/

theorem pyPow_succ (a : Int) (k p : Nat) (hp : 0 < p) : (pyPow a k p * a).fmod p = pyPow a (k + 1) p := by
  apply eq_of_cast (fmod_nonneg _ hp) (fmod_lt _ hp) (pyPow_nonneg _ _ hp) (pyPow_lt _ _ hp)
  rw [cast_fmod]; push_cast; rw [cast_pyPow, cast_pyPow, pow_succ]

theorem babySteps_lookup (am : Int) {p : Nat} (hp : 0 < p) (v : Int) : ∀ (j k : Nat) (cache : List (Int × Nat)),
    (∃ i, (babySteps am p k j (pyPow am k p) cache).lookup v = some i ∧ k ≤ i ∧ i < k + j ∧
      pyPow am i p = v ∧ ∀ i', i < i' → i' < k + j → pyPow am i' p ≠ v) ∨
    ((babySteps am p k j (pyPow am k p) cache).lookup v = cache.lookup v ∧
      ∀ i', k ≤ i' → i' < k + j → pyPow am i' p ≠ v) := by
  intro j
  induction j with
  | zero => intro k cache; right; exact ⟨rfl, by intro i' h1 h2; omega⟩
  | succ j ih =>
    intro k cache
    rw [babySteps, pyPow_succ _ _ _ hp]
    rcases ih (k + 1) ((pyPow am k p, k) :: cache) with ⟨i, h1, h2, h3, h4, h5⟩ | ⟨h1, h2⟩
    · left; exact ⟨i, h1, by omega, by omega, h4, by intro i' h6 h7; exact h5 i' h6 (by omega)⟩
    · rw [h1, List.lookup_cons]
      by_cases hv : pyPow am k p = v
      · left
        have e : (v == pyPow am k p) = true := by simp [hv]
        refine ⟨k, by rw [e], le_refl _, by omega, hv, ?_⟩
        intro i' h6 h7; exact h2 i' h6 (by omega)
      · right
        have e : (v == pyPow am k p) = false := by simp [Ne.symm hv]
        refine ⟨by rw [e], ?_⟩
        intro i' h6 h7
        rcases Nat.eq_or_lt_of_le h6 with rfl | h8
        · exact hv
        · exact h2 i' h8 (by omega)

/-- The value of `val` in the second loop after `t` multiplications. -/
def giantVal (a : Int) (p : Nat) (val : Int) : Nat → Int
  | 0 => val
  | t + 1 => giantVal a p ((val * a).fmod p) t

theorem giantVal_cast (a : Int) (p : Nat) : ∀ (t : Nat) (val : Int),
    ((giantVal a p val t : Int) : ZMod p) = val * (a : ZMod p) ^ t := by
  intro t
  induction t with
  | zero => intro val; simp [giantVal]
  | succ t ih => intro val; rw [giantVal, ih, cast_fmod]; push_cast; ring

theorem giantVal_range (a : Int) {p : Nat} (hp : 0 < p) : ∀ (t : Nat) (val : Int),
    (1 ≤ t ∨ (0 ≤ val ∧ val < p)) → 0 ≤ giantVal a p val t ∧ giantVal a p val t < p := by
  intro t
  induction t with
  | zero =>
    intro val h
    rcases h with h | h
    · omega
    · exact h
  | succ t ih =>
    intro val _
    rw [giantVal]
    exact ih _ (Or.inr ⟨fmod_nonneg _ hp, fmod_lt _ hp⟩)

theorem giantSteps_spec (a : Int) (p m : Nat) (cache : List (Int × Nat)) : ∀ (j k : Nat) (val : Int),
    (giantSteps a p m cache k j val = 1 ∧ ∀ t < j, cache.lookup (giantVal a p val t) = none) ∨
    ∃ t < j, ∃ i, cache.lookup (giantVal a p val t) = some i ∧
      giantSteps a p m cache k j val = i * m - (k + t) ∧
      ∀ s < t, cache.lookup (giantVal a p val s) = none := by
  intro j
  induction j with
  | zero => intro k val; left; exact ⟨rfl, by intro t ht; omega⟩
  | succ j ih =>
    intro k val
    rw [giantSteps]
    cases hl : cache.lookup val with
    | some i =>
      right
      exact ⟨0, by omega, i, hl, by simp, by intro s hs; omega⟩
    | none =>
      rcases ih (k + 1) ((val * a).fmod p) with ⟨h1, h2⟩ | ⟨t, ht, i, h1, h2, h3⟩
      · left
        refine ⟨h1, ?_⟩
        intro t ht
        cases t with
        | zero => exact hl
        | succ t => exact h2 t (by omega)
      · right
        refine ⟨t + 1, by omega, i, h1, by dsimp only; rw [h2]; congr 1; omega, ?_⟩
        intro s hs
        cases s with
        | zero => exact hl
        | succ s => exact h3 s (by omega)

/-- `discrete_log(a, b, p)` for `p ≥ 1`: a returned `k` satisfies `a^k ≡ b (mod p)`; when `a` is
coprime to `p` (in particular for prime `p ∤ a`) a positive solution is returned whenever there
is one, and otherwise ValueError is raised. -/
theorem C25_discrete_log (a b : Int) (p : Nat) (hp : 1 ≤ p) :
    (∀ k, discreteLog a b p = .ok k → (p : Int) ∣ a ^ k - b) ∧
    ((¬ ∃ k : Nat, (p : Int) ∣ a ^ k - b) → discreteLog a b p = .error .valueError) ∧
    (Int.gcd a p = 1 → (∃ k : Nat, (p : Int) ∣ a ^ k - b) → ∃ k, discreteLog a b p = .ok k ∧ 1 ≤ k) := by
  have hdvd : ∀ k : Nat, (p : Int) ∣ a ^ k - b ↔ (a : ZMod p) ^ k = b := by
    intro k; rw [← cast_eq_iff_dvd]; push_cast; rfl
  have hpy : ∀ k : Nat, pyPow a k p = b.fmod p ↔ (a : ZMod p) ^ k = b := by
    intro k
    constructor
    · intro h
      have := congrArg (fun z : Int => (z : ZMod p)) h
      simpa using this
    · intro h
      apply eq_of_cast (pyPow_nonneg _ _ hp) (pyPow_lt _ _ hp) (fmod_nonneg _ hp) (fmod_lt _ hp)
      simpa using h
  simp only [hdvd]
  obtain ⟨s, hs, hs1, hs2, -⟩ := integerSqrt_nat p
  unfold discreteLog
  rw [hs]
  dsimp only
  obtain ⟨m, hm⟩ : ∃ m, m = s + 1 := ⟨_, rfl⟩
  rw [← hm]
  have hmm : p < m * m := by
    have := Nat.lt_succ_sqrt p
    rw [Nat.succ_eq_add_one] at this
    have : (p.sqrt + 1) * (p.sqrt + 1) ≤ m * m := Nat.mul_le_mul (by omega) (by omega)
    omega
  have hm1 : 1 ≤ m := by omega
  generalize hx : giantSteps a p m (babySteps (pyPow a m p) p 1 m (pyPow a m p) []) 0 (m + 1) b = x
  simp only [hpy]
  refine ⟨?_, ?_, ?_⟩
  · intro k h
    split at h
    · rename_i h1; cases h; exact h1
    · cases h
  · intro h
    rw [if_neg (fun h1 => h ⟨x, h1⟩)]
  · intro hg hex
    -- the group element
    obtain ⟨u, hu⟩ := isUnit_cast.2 hg
    have ham : pyPow (pyPow a m p) 1 p = pyPow a m p := by
      unfold pyPow; rw [pow_one, fmod_nat, fmod_nat, Int.emod_emod_of_dvd _ (dvd_refl _)]
    have hlook := fun v => babySteps_lookup (pyPow a m p) hp v m 1 []
    rw [ham] at hlook
    generalize babySteps (pyPow a m p) p 1 m (pyPow a m p) [] = cache at *
    have hcastam : ∀ i : Nat, ((pyPow (pyPow a m p) i p : Int) : ZMod p) = (a : ZMod p) ^ (m * i) := by
      intro i; rw [cast_pyPow, cast_pyPow, pow_mul]
    -- a match at step t with 1 ≤ t ≤ m exists whenever b * a^t = a^(m i)
    have hmatch : ∀ t i, 1 ≤ t → 1 ≤ i → i ≤ m → (b : ZMod p) * (a : ZMod p) ^ t = (a : ZMod p) ^ (m * i) →
        ∃ i', cache.lookup (giantVal a p b t) = some i' ∧ i ≤ i' ∧ i' ≤ m := by
      intro t i ht hi him h
      have hv : pyPow (pyPow a m p) i p = giantVal a p b t := by
        obtain ⟨r1, r2⟩ := giantVal_range a hp t b (Or.inl ht)
        apply eq_of_cast (pyPow_nonneg _ _ hp) (pyPow_lt _ _ hp) r1 r2
        rw [hcastam, giantVal_cast, h]
      rcases hlook (giantVal a p b t) with ⟨i', h1, h2, h3, h4, h5⟩ | ⟨h1, h2⟩
      · refine ⟨i', h1, ?_, by omega⟩
        by_contra hlt
        exact h5 i (by omega) (by omega) hv
      · exact absurd hv (h2 i hi (by omega))
    have hmatch2 : ∀ t i, cache.lookup (giantVal a p b t) = some i →
        1 ≤ i ∧ i ≤ m ∧ (b : ZMod p) * (a : ZMod p) ^ t = (a : ZMod p) ^ (m * i) := by
      intro t i h
      rcases hlook (giantVal a p b t) with ⟨i', h1, h2, h3, h4, h5⟩ | ⟨h1, h2⟩
      · rw [h] at h1; cases h1
        refine ⟨h2, by omega, ?_⟩
        rw [← hcastam, h4, giantVal_cast]
      · rw [h] at h1; cases h1
    haveI : NeZero p := ⟨by omega⟩
    have ho : orderOf u < m * m := by
      have h1 : orderOf u ≤ Fintype.card (ZMod p)ˣ := orderOf_le_card_univ
      rw [ZMod.card_units_eq_totient] at h1
      have := Nat.totient_le p
      omega
    have ho1 : 0 < orderOf u := orderOf_pos u
    -- a match exists
    obtain ⟨k, hk⟩ := hex
    have hdecomp : ∀ y, y < m * m → ∃ t i, 1 ≤ t ∧ t ≤ m ∧ 1 ≤ i ∧ i ≤ m ∧ y + t = m * i := by
      intro y hy
      have h1 : y / m < m := Nat.div_lt_of_lt_mul hy
      have h2 := Nat.div_add_mod y m
      have h3 := Nat.mod_lt y (show m > 0 by omega)
      generalize y / m = q at *
      refine ⟨m - y % m, q + 1, by omega, by omega, by omega, by omega, ?_⟩
      rw [mul_add]; omega
    have hkk : (b : ZMod p) = (a : ZMod p) ^ (k % orderOf u) := by
      rw [← hk, ← hu, ← Units.val_pow_eq_pow_val, ← Units.val_pow_eq_pow_val, pow_mod_orderOf]
    obtain ⟨t0, i0, t1, t2, i1, i2, hti⟩ := hdecomp (k % orderOf u)
      (lt_trans (Nat.mod_lt _ ho1) ho)
    obtain ⟨i', hi', -, -⟩ := hmatch t0 i0 t1 i1 i2 (by rw [hkk, ← pow_add, hti])
    rcases giantSteps_spec a p m cache (m + 1) 0 b with ⟨g1, g2⟩ | ⟨t, ht, i, g1, g2, g3⟩
    · rw [g2 t0 (by omega)] at hi'; cases hi'
    · rw [hx, Nat.zero_add] at g2
      obtain ⟨j1, j2, j3⟩ := hmatch2 t i g1
      have hle : t ≤ m * i := le_trans (by omega) (Nat.le_mul_of_pos_right m j1)
      have hsol : (a : ZMod p) ^ x = b := by
        have h1 : m * i = x + t := by rw [g2, mul_comm i m]; omega
        rw [h1, pow_add] at j3
        have hut : IsUnit ((a : ZMod p) ^ t) := by rw [← hu]; exact (u.isUnit).pow t
        exact (hut.mul_left_injective j3).symm
      refine ⟨x, by rw [if_pos hsol], ?_⟩
      by_contra hx0
      have hx0 : x = 0 := by omega
      have htm : m * i = t := by rw [hx0, mul_comm i m] at g2; omega
      have hi1 : i = 1 := by nlinarith
      subst hi1
      have hb1 : (b : ZMod p) = 1 := by rw [← hsol, hx0, pow_zero]
      obtain ⟨t3, i3, t4, t5, i4, i5, hti3⟩ := hdecomp (orderOf u) ho
      have hpow : (a : ZMod p) ^ orderOf u = 1 := by
        rw [← hu, ← Units.val_pow_eq_pow_val, pow_orderOf_eq_one, Units.val_one]
      obtain ⟨i6, l1, l2, l3⟩ := hmatch t3 i3 t4 i4 i5 (by
        rw [hb1, one_mul, ← hti3, pow_add, hpow, one_mul])
      rcases Nat.lt_or_ge t3 m with h | h
      · rw [g3 t3 (by omega)] at l1; cases l1
      · have : t3 = t := by omega
        subst this
        rw [g1] at l1
        cases l1
        have : i3 = 1 := by omega
        subst this
        omega

example : discreteLog 2 6 19 = .ok 14 ∧ discreteLog 2 76 100 = .ok 120 ∧
    discreteLog 2 77 100 = .error .valueError ∧ discreteLog 3 (-1) 7 = .ok 3 := by decide +kernel

/-- Outside the coprime case the search is not complete: `2^0 ≡ 1 (mod 64)`, but
`discrete_log(2, 1, 64)` raises ValueError. -/
theorem C25_discrete_log_not_coprime :
    (64 : Int) ∣ 2 ^ 0 - 1 ∧ discreteLog 2 1 64 = .error .valueError := by decide +kernel

/-! ## C26 -/

/-- `multiplicative_order(a, n)` for `n ≥ 2`: ValueError unless `gcd(a, n) = 1`; otherwise the
least positive `k` with `a^k ≡ 1 (mod n)`. -/
theorem C26_multiplicative_order (a : Int) (n : Nat) (hn : 2 ≤ n) (phiFac : List (Nat × Nat))
    (hf : FactorsTo phiFac n.totient) :
    (Int.gcd a n ≠ 1 → multiplicativeOrder a n phiFac = .error .valueError) ∧
    (Int.gcd a n = 1 → ∃ k, multiplicativeOrder a n phiFac = .ok (some k) ∧ 1 ≤ k ∧
      (n : Int) ∣ a ^ k - 1 ∧ ∀ j : Nat, 1 ≤ j → (n : Int) ∣ a ^ j - 1 → k ≤ j) := by
  unfold multiplicativeOrder
  rw [gcd_eq]
  constructor
  · intro h; rw [if_pos (by exact_mod_cast h)]
  · intro h
    rw [if_neg (by simpa using h)]
    have hdvd : ∀ k : Nat, (n : Int) ∣ a ^ k - 1 ↔ (a : ZMod n) ^ k = 1 := by
      intro k; rw [← cast_eq_iff_dvd]; push_cast; rfl
    obtain ⟨u, hu⟩ := isUnit_cast.2 h
    have hpow : ∀ k : Nat, (a : ZMod n) ^ k = 1 ↔ u ^ k = 1 := by
      intro k; rw [← hu, ← Units.val_pow_eq_pow_val, Units.val_eq_one]
    simp only [hdvd, hpow]
    haveI : NeZero n := ⟨by omega⟩
    have hpos : 0 < n.totient := Nat.totient_pos.2 (by omega)
    obtain ⟨h1, h2⟩ := C28_divisors phiFac hf.primes
    rw [hf.prod] at h2
    refine ⟨orderOf u, ?_, orderOf_pos u, pow_orderOf_eq_one u,
      fun j hj hj' => Nat.le_of_dvd hj (orderOf_dvd_of_pow_eq_one hj')⟩
    have hmem : orderOf u ∈ divisors phiFac := (h2 _).2 (orderOf_dvd_of_pow_eq_one (ZMod.pow_totient u))
    congr 1
    rw [List.find?_eq_some_iff_append]
    obtain ⟨l1, l2, hl⟩ := List.append_of_mem hmem
    refine ⟨by simp [pyPow_eq_one_iff _ _ hn, hpow, pow_orderOf_eq_one], l1, l2, hl, ?_⟩
    intro x hx
    rw [hl] at h1 h2
    have hlt : x < orderOf u := (List.pairwise_append.1 h1).2.2 x hx _ (by simp)
    have hx0 : 0 < x := Nat.pos_of_dvd_of_pos ((h2 x).1 (by simp [hx])) hpos
    simp only [Bool.not_eq_true', beq_eq_false_iff_ne, ne_eq, pyPow_eq_one_iff _ _ hn, hpow]
    intro hc
    have := Nat.le_of_dvd hx0 (orderOf_dvd_of_pow_eq_one hc)
    omega

/-- For the trivial modulus nothing is found and `None` is returned. -/
theorem C26_multiplicative_order_one (a : Int) : multiplicativeOrder a 1 [] = .ok none := by
  unfold multiplicativeOrder
  rw [gcd_eq, if_neg (by simp)]
  have : divisors [] = [1] := by decide +kernel
  rw [this]
  simp [pyPow, Int.fmod_one]

example : FactorsTo [(2, 1), (3, 1)] (Nat.totient 7) ∧ Int.gcd 4 7 = 1 ∧
    multiplicativeOrder 4 7 [(2, 1), (3, 1)] = .ok (some 3) ∧
    multiplicativeOrder 2 10 [(2, 2)] = .error .valueError :=
  ⟨⟨⟨by decide, by decide⟩, by decide, by decide⟩, by decide, by decide +kernel, by decide +kernel⟩

end Rosemary.Props
