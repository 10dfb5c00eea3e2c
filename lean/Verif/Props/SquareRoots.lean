import Verif.Props.ZnArithmetic
import Mathlib.NumberTheory.LegendreSymbol.QuadraticReciprocity

/-!
# Properties C20-C22: square roots and quadratic congruences
-/

namespace Rosemary.Props

open Rosemary.Core Rosemary.ArithFunctions Rosemary.Factorization Rosemary.Zn

/-! ## C20 -/

theorem zmod_two_mul_self : ∀ y : ZMod 2, y * y = y := by decide

theorem bothRoots_spec {p : Nat} [hp : Fact p.Prime] (hp2 : p ≠ 2) {x : Int} {a : ZMod p} (ha : a ≠ 0)
    (hx0 : 0 ≤ x) (hx1 : x < p) (hx : (x : ZMod p) * x = a) :
    (bothRoots x p).Pairwise (· < ·) ∧
    ∀ y : Int, y ∈ bothRoots x p ↔ 0 ≤ y ∧ y < p ∧ (y : ZMod p) * y = a := by
  have hxne : (x : ZMod p) ≠ 0 := by rintro h; rw [h, zero_mul] at hx; exact ha hx.symm
  have hxpos : x ≠ 0 := by rintro rfl; simp at hxne
  have hodd : p % 2 = 1 := by rcases hp.out.eq_two_or_odd with h | h <;> omega
  unfold bothRoots
  constructor
  · apply pySort_int_lt
    simp only [List.nodup_cons, List.mem_singleton, List.not_mem_nil, not_false_eq_true,
      List.nodup_nil, and_true]
    omega
  · intro y
    rw [mem_pySort]
    simp only [List.mem_cons, List.not_mem_nil, or_false]
    constructor
    · rintro (rfl | rfl)
      · exact ⟨hx0, hx1, hx⟩
      · refine ⟨by omega, by omega, ?_⟩
        push_cast
        rw [← hx]
        simp
    · rintro ⟨h0, h1, h2⟩
      rw [← hx] at h2
      rcases mul_self_eq_mul_self_iff.1 h2 with h | h
      · left; exact eq_of_cast h0 h1 hx0 hx1 h
      · right
        apply eq_of_cast h0 h1 (by omega) (by omega)
        push_cast
        rw [h]; simp

theorem pyPow_eq_neg_one {p : Nat} (hp : 2 ≤ p) (x : Int) (k : Nat) :
    pyPow x k p = (p : Int) - 1 ↔ (x : ZMod p) ^ k = -1 := by
  rw [← cast_pyPow]
  constructor
  · intro h; rw [h]; push_cast; simp
  · intro h
    apply eq_of_cast (pyPow_nonneg _ _ (by omega)) (pyPow_lt _ _ (by omega)) (by omega) (by omega)
    rw [h]; push_cast; simp

theorem tonelliExponent_spec {p : Nat} [hp : Fact p.Prime] (A D : Int) (s : Nat) (hs : 1 ≤ s)
    (hA : (A : ZMod p) ^ (2 ^ (s - 1)) = 1) (hD : (D : ZMod p) ^ (2 ^ (s - 1)) = -1) (hp2 : p ≠ 2) :
    tonelliExponent p A D s % 2 = 0 ∧ (A : ZMod p) * (D : ZMod p) ^ (tonelliExponent p A D s) = 1 := by
  have hp2' := hp.out.two_le
  unfold tonelliExponent
  set f : Nat → Nat → Nat := fun m i =>
    if pyPow (A * D ^ m) (2 ^ (s - 1 - i)) p = (p : Int) - 1 then m + 2 ^ i else m with hf
  have key : ∀ j, j ≤ s → ((List.range j).foldl f 0) % 2 = 0 ∧
      ((A : ZMod p) * (D : ZMod p) ^ ((List.range j).foldl f 0)) ^ (2 ^ (s - j)) = 1 := by
    intro j
    induction j with
    | zero =>
      intro _
      refine ⟨rfl, ?_⟩
      simp only [List.range_zero, List.foldl_nil, pow_zero, mul_one, Nat.sub_zero]
      obtain ⟨s', rfl⟩ : ∃ s', s = s' + 1 := ⟨s - 1, by omega⟩
      rw [pow_succ, pow_mul]
      simp only [Nat.add_sub_cancel] at hA
      rw [hA, one_pow]
    | succ j ih =>
      intro hj
      obtain ⟨i1, i2⟩ := ih (by omega)
      rw [List.range_succ, List.foldl_append, List.foldl_cons, List.foldl_nil]
      generalize (List.range j).foldl f 0 = m at i1 i2 ⊢
      obtain ⟨e, he⟩ : ∃ e, s = j + 1 + e := ⟨s - (j + 1), by omega⟩
      have e1 : s - j = e + 1 := by omega
      have e2 : s - (j + 1) = e := by omega
      have e3 : s - 1 - j = e := by omega
      rw [e1, pow_succ, pow_mul] at i2
      rw [e2, hf]
      dsimp only
      rw [e3]
      have hcond := pyPow_eq_neg_one hp2' (A * D ^ m) (2 ^ e)
      push_cast at hcond
      rcases mul_self_eq_one_iff.1 ((sq _).symm.trans i2) with h | h
      · have hne : ¬ ((A : ZMod p) * (D : ZMod p) ^ m) ^ 2 ^ e = -1 := by
          rw [h]
          intro hc
          haveI : Fact (2 < p) := ⟨by omega⟩
          exact ZMod.neg_one_ne_one hc.symm
        rw [if_neg (fun hc => hne (hcond.1 hc))]
        exact ⟨i1, h⟩
      · rw [if_pos (hcond.2 h)]
        constructor
        · rcases Nat.eq_zero_or_pos j with rfl | hj0
          · exfalso
            -- at step 0 the value is A^(2^(s-1)) = 1
            haveI : Fact (2 < p) := ⟨by omega⟩
            have hm0 : e = s - 1 := by omega
            have hDm : ((D : ZMod p) ^ m) ^ 2 ^ e = 1 := by
              rw [← pow_mul, mul_comm, pow_mul, hm0, hD]
              exact Even.neg_one_pow (Nat.even_iff.2 i1)
            rw [mul_pow, hDm, mul_one, hm0, hA] at h
            exact ZMod.neg_one_ne_one h.symm
          · have : 2 ∣ 2 ^ j := dvd_pow_self 2 (by omega)
            omega
        · have : (A : ZMod p) * (D : ZMod p) ^ (m + 2 ^ j) = ((A : ZMod p) * (D : ZMod p) ^ m) * (D : ZMod p) ^ 2 ^ j := by
            rw [pow_add]; ring
          rw [this, mul_pow, h, ← pow_mul, ← pow_add, show j + e = s - 1 by omega, hD]
          ring
  obtain ⟨k1, k2⟩ := key s (le_refl _)
  rw [Nat.sub_self, pow_zero, pow_one] at k2
  exact ⟨k1, k2⟩

theorem tonelliRoot_spec {p : Nat} [hp : Fact p.Prime] (hp2 : p ≠ 2) (a d : Int)
    (ha0 : (a : ZMod p) ≠ 0) (ha : IsSquare (a : ZMod p)) (hd : ¬ IsSquare (d : ZMod p)) :
    0 ≤ tonelliRoot a d p ∧ tonelliRoot a d p < p ∧
      ((tonelliRoot a d p : Int) : ZMod p) * (tonelliRoot a d p : Int) = a := by
  have hodd : p % 2 = 1 := by rcases hp.out.eq_two_or_odd with h | h <;> omega
  have hp2' := hp.out.two_le
  unfold tonelliRoot
  dsimp only
  refine ⟨fmod_nonneg _ hp.out.pos, fmod_lt _ hp.out.pos, ?_⟩
  rw [cast_fmod]
  obtain ⟨v1, v2⟩ := C13_valuation_partial 2 ((p : Int) - 1) (by norm_num) (by omega)
  generalize valuation 2 ((p : Int) - 1) (by norm_num) = s at *
  have hcast : ((p - 1 : Nat) : Int) = (p : Int) - 1 := by omega
  rw [← hcast] at v1 v2
  have v1' : 2 ^ s ∣ p - 1 := by exact_mod_cast v1
  have v2' : ¬ 2 ^ (s + 1) ∣ p - 1 := by exact_mod_cast v2
  rw [Nat.shiftRight_eq_div_pow]
  obtain ⟨t, ht⟩ := v1'
  rw [ht, Nat.mul_div_cancel_left _ (by positivity)]
  have htodd : t % 2 = 1 := by
    by_contra hc
    apply v2'
    rw [ht, pow_succ]
    exact Nat.mul_dvd_mul_left _ (by omega)
  have hs : 1 ≤ s := by
    by_contra hc
    have : s = 0 := by omega
    subst this
    apply v2'
    norm_num
    omega
  have hhalf : p / 2 = t * 2 ^ (s - 1) := by
    obtain ⟨s', rfl⟩ : ∃ s', s = s' + 1 := ⟨s - 1, by omega⟩
    rw [Nat.add_sub_cancel]
    rw [pow_succ] at ht
    have : p - 1 = 2 * (t * 2 ^ s') := by rw [ht]; ring
    omega
  have hd0 : (d : ZMod p) ≠ 0 := by rintro h; rw [h] at hd; exact hd (IsSquare.zero)
  have hA : ((pyPow a t p : Int) : ZMod p) ^ 2 ^ (s - 1) = 1 := by
    rw [cast_pyPow, ← pow_mul, ← hhalf]
    exact (ZMod.euler_criterion p ha0).1 ha
  have hD : ((pyPow d t p : Int) : ZMod p) ^ 2 ^ (s - 1) = -1 := by
    rw [cast_pyPow, ← pow_mul, ← hhalf]
    rcases ZMod.pow_div_two_eq_neg_one_or_one p hd0 with h | h
    · exact absurd ((ZMod.euler_criterion p hd0).2 h) hd
    · exact h
  obtain ⟨m1, m2⟩ := tonelliExponent_spec (pyPow a t p) (pyPow d t p) s hs hA hD hp2
  generalize tonelliExponent p (pyPow a t p) (pyPow d t p) s = m at *
  push_cast
  rw [cast_pyPow, cast_pyPow]
  obtain ⟨k, rfl⟩ : ∃ k, t = 2 * k + 1 := ⟨t / 2, by omega⟩
  obtain ⟨l, rfl⟩ : ∃ l, m = 2 * l := ⟨m / 2, by omega⟩
  rw [show (2 * k + 1 + 1) / 2 = k + 1 by omega, Nat.mul_div_cancel_left _ (by norm_num)]
  generalize ((pyPow d (2 * k + 1) p : Int) : ZMod p) = D at *
  rw [cast_pyPow] at m2
  linear_combination (a : ZMod p) * m2

theorem findNonresidue_correct (rnd : Nat → Int) (p : Nat) (i : Nat) (d : Int)
    (h : findNonresidue rnd p i = some d) : jacobiSymbol d p = .ok (-1) := by
  revert d
  refine findNonresidue.partial_correctness rnd p (fun _ r => jacobiSymbol r p = .ok (-1)) ?_ i
  intro f ih i r h
  split at h
  · rename_i h1; cases h; exact h1
  · exact ih _ _ h

theorem findNonresidue_total (rnd : Nat → Int) (p : Nat) : ∀ (k i : Nat),
    jacobiSymbol (rnd (i + k)) p = .ok (-1) → ∃ d, findNonresidue rnd p i = some d := by
  intro k
  induction k with
  | zero => intro i h; rw [findNonresidue]; rw [Nat.add_zero] at h; rw [if_pos h]; exact ⟨_, rfl⟩
  | succ k ih =>
    intro i h
    rw [findNonresidue]
    split
    · exact ⟨_, rfl⟩
    · exact ih (i + 1) (by rw [show i + 1 + k = i + (k + 1) by omega]; exact h)

theorem jacobi_neg_one {p : Nat} [hp : Fact p.Prime] (hp2 : p ≠ 2) (d : Int) :
    jacobiSymbol d p = .ok (-1) ↔ ¬ IsSquare (d : ZMod p) := by
  rw [C12_jacobi_symbol_prime d p hp2]
  split
  · rename_i h; rw [h]; simp
  · split
    · rename_i h; simp [h]
    · rename_i h; simp [h]

/-- `sqrts_mod_p(a, p)` for prime `p` and whatever random choices: if the search for a
nonresidue ends, the result is the strictly increasing list of all square roots of `a`. -/
theorem C20_sqrts_mod_p (rnd : Nat → Int) (a : Int) (p : Nat) (hp : p.Prime)
    (r : Except PyErr (List Int)) (h : sqrtsModP rnd a p = some r) :
    ∃ L, r = .ok L ∧ L.Pairwise (· < ·) ∧
      ∀ x, x ∈ L ↔ 0 ≤ x ∧ x < p ∧ (p : Int) ∣ x ^ 2 - a := by
  haveI : Fact p.Prime := ⟨hp⟩
  have hp2 := hp.two_le
  have hdvd : ∀ x : Int, (p : Int) ∣ x ^ 2 - a ↔ (x : ZMod p) * x = a := by
    intro x; rw [← cast_eq_iff_dvd]; push_cast; rw [sq]
  simp only [hdvd]
  unfold sqrtsModP at h
  rw [if_neg (by omega)] at h
  split at h
  · rename_i h2
    subst h2
    cases h
    refine ⟨_, rfl, by simp, fun x => ?_⟩
    simp only [List.mem_singleton, zmod_two_mul_self]
    constructor
    · rintro rfl
      exact ⟨fmod_nonneg _ (by norm_num), fmod_lt _ (by norm_num), cast_fmod _ _⟩
    · rintro ⟨h0, h1, h2⟩
      exact eq_of_cast h0 h1 (fmod_nonneg _ (by norm_num)) (fmod_lt _ (by norm_num))
        (by rw [cast_fmod]; exact h2)
  · rename_i hne
    have hodd : p % 2 = 1 := by rcases hp.eq_two_or_odd with h | h <;> omega
    dsimp only at h
    have hac : ((a.fmod p : Int) : ZMod p) = a := cast_fmod a p
    have ha1 := fmod_nonneg a hp.pos
    have ha2 := fmod_lt a hp.pos
    rw [← hac]
    generalize a.fmod p = b at *
    split at h
    · rename_i hb
      subst hb
      cases h
      refine ⟨_, rfl, by simp, fun x => ?_⟩
      simp only [List.mem_singleton]
      constructor
      · rintro rfl; exact ⟨le_refl _, by omega, by simp⟩
      · rintro ⟨h0, h1, h2⟩
        refine eq_of_cast h0 h1 (le_refl _) (by omega) ?_
        push_cast at h2 ⊢
        exact mul_self_eq_zero.1 h2
    · rename_i hb
      have hb0 : (b : ZMod p) ≠ 0 := by
        intro hc
        exact hb (eq_of_cast ha1 ha2 (le_refl _) (by omega) (by rw [hc]; simp))
      rw [C12_jacobi_symbol_prime b p hne, if_neg hb0] at h
      dsimp only at h
      by_cases hsq : IsSquare (b : ZMod p)
      swap
      · rw [if_neg hsq, if_pos (by norm_num)] at h
        cases h
        refine ⟨_, rfl, List.Pairwise.nil, fun x => ?_⟩
        simp only [List.not_mem_nil, false_iff]
        rintro ⟨-, -, h2⟩
        exact hsq ⟨_, h2.symm⟩
      · rw [if_pos hsq, if_neg (by simp)] at h
        have heuler : (b : ZMod p) ^ (p / 2) = 1 := (ZMod.euler_criterion p hb0).1 hsq
        split at h
        · rename_i h8
          cases h
          refine ⟨_, rfl, bothRoots_spec hne hb0 (pyPow_nonneg _ _ hp.pos) (pyPow_lt _ _ hp.pos) ?_⟩
          rw [cast_pyPow, ← pow_add, show (p + 1) / 4 + (p + 1) / 4 = p / 2 + 1 by omega, pow_succ,
            heuler, one_mul]
        · split at h
          · rename_i h8
            cases h
            refine ⟨_, rfl, ?_⟩
            have hxx : ((pyPow b ((p + 3) / 8) p : Int) : ZMod p) * (pyPow b ((p + 3) / 8) p : Int) =
                b * (b : ZMod p) ^ ((p - 1) / 4) := by
              rw [cast_pyPow, ← pow_add, ← pow_succ']
              congr 1
              omega
            have hpm : (b : ZMod p) ^ ((p - 1) / 4) = 1 ∨ (b : ZMod p) ^ ((p - 1) / 4) = -1 := by
              apply mul_self_eq_one_iff.1
              rw [← pow_add, show (p - 1) / 4 + (p - 1) / 4 = p / 2 by omega, heuler]
            have hchk : (pyPow b ((p + 3) / 8) p * pyPow b ((p + 3) / 8) p).fmod p = b ↔
                ((pyPow b ((p + 3) / 8) p : Int) : ZMod p) * (pyPow b ((p + 3) / 8) p : Int) = b := by
              constructor
              · intro hc
                have := congrArg (fun z : Int => (z : ZMod p)) hc
                simp only [cast_fmod] at this
                push_cast at this
                exact this
              · intro hc
                apply eq_of_cast (fmod_nonneg _ hp.pos) (fmod_lt _ hp.pos) ha1 ha2
                rw [cast_fmod]; push_cast; exact hc
            split
            · rename_i hbad
              apply bothRoots_spec hne hb0 (fmod_nonneg _ hp.pos) (fmod_lt _ hp.pos)
              rw [ne_eq, hchk] at hbad
              have hneg : (b : ZMod p) ^ ((p - 1) / 4) = -1 := by
                rcases hpm with hpm | hpm
                · exfalso; apply hbad; rw [hxx, hpm, mul_one]
                · exact hpm
              have h2n : ¬ IsSquare (2 : ZMod p) := by
                rw [ZMod.exists_sq_eq_two_iff hne]; omega
              have h20 : (2 : ZMod p) ≠ 0 := by intro hc; rw [hc] at h2n; exact h2n IsSquare.zero
              have h2e : (2 : ZMod p) ^ (p / 2) = -1 := by
                rcases ZMod.pow_div_two_eq_neg_one_or_one p h20 with h | h
                · exact absurd ((ZMod.euler_criterion p h20).2 h) h2n
                · exact h
              have h2x : ((pyPow 2 ((p - 1) / 4) p : Int) : ZMod p) * (pyPow 2 ((p - 1) / 4) p : Int) = -1 := by
                rw [cast_pyPow, ← pow_add, show (p - 1) / 4 + (p - 1) / 4 = p / 2 by omega]
                push_cast
                exact h2e
              rw [cast_fmod]
              push_cast
              rw [hneg] at hxx
              generalize ((pyPow b ((p + 3) / 8) p : Int) : ZMod p) = X at *
              generalize ((pyPow 2 ((p - 1) / 4) p : Int) : ZMod p) = Y at *
              linear_combination (Y * Y) * hxx - (b : ZMod p) * h2x
            · rename_i hgood
              rw [ne_eq, not_not, hchk] at hgood
              exact bothRoots_spec hne hb0 (pyPow_nonneg _ _ hp.pos) (pyPow_lt _ _ hp.pos) hgood
          · split at h
            · cases h
            · rename_i d hd
              cases h
              have hdn := (jacobi_neg_one hne d).1 (findNonresidue_correct _ _ _ _ hd)
              obtain ⟨t1, t2, t3⟩ := tonelliRoot_spec hne b d hb0 hsq hdn
              exact ⟨_, rfl, bothRoots_spec hne hb0 t1 t2 t3⟩

/-- The call ends whenever no search is made (`p % 8 ≠ 1`) or the stream of random choices
contains a quadratic nonresidue; such nonresidues exist. -/
theorem C20_sqrts_mod_p_total (rnd : Nat → Int) (a : Int) (p : Nat) (hp : p.Prime)
    (h : p % 8 = 1 → ∃ i, ¬ IsSquare ((rnd i : Int) : ZMod p)) : ∃ r, sqrtsModP rnd a p = some r := by
  haveI : Fact p.Prime := ⟨hp⟩
  unfold sqrtsModP
  split
  · exact ⟨_, rfl⟩
  · split
    · exact ⟨_, rfl⟩
    · rename_i hne
      have hodd : p % 2 = 1 := by rcases hp.eq_two_or_odd with h | h <;> omega
      dsimp only
      split
      · exact ⟨_, rfl⟩
      · split
        · exact ⟨_, rfl⟩
        · split
          · exact ⟨_, rfl⟩
          · split
            · exact ⟨_, rfl⟩
            · split
              · exact ⟨_, rfl⟩
              · rename_i h3 h5
                obtain ⟨i, hi⟩ := h (by omega)
                obtain ⟨d, hd⟩ := findNonresidue_total rnd p i 0
                  (by rw [Nat.zero_add]; exact (jacobi_neg_one hne _).2 hi)
                rw [hd]
                exact ⟨_, rfl⟩

theorem C20_sqrts_mod_p_error (rnd : Nat → Int) (a : Int) (p : Nat) (hp : p < 2) :
    sqrtsModP rnd a p = some (.error .valueError) := by unfold sqrtsModP; rw [if_pos hp]

/-- The streams required by `C20_sqrts_mod_p_total` exist. -/
theorem C20_nonresidue_exists (p : Nat) (hp : p.Prime) (h2 : p ≠ 2) :
    ∃ d : Int, 2 ≤ d ∧ d < p ∧ ¬ IsSquare ((d : Int) : ZMod p) := by
  haveI : Fact p.Prime := ⟨hp⟩
  obtain ⟨x, hx⟩ := FiniteField.exists_nonsquare (F := ZMod p) (by rw [ZMod.ringChar_zmod_n]; exact h2)
  obtain ⟨y, h0, h1, rfl⟩ := exists_rep hp.pos x
  refine ⟨y, ?_, h1, hx⟩
  by_contra hc
  have : y = 0 ∨ y = 1 := by omega
  rcases this with rfl | rfl
  · simp at hx
  · simp at hx

example : sqrtsModP (fun _ => 3) 2 17 = some (.ok [6, 11]) := by
  have h : findNonresidue (fun _ => 3) 17 0 = some 3 := by rw [findNonresidue]; decide +kernel
  unfold sqrtsModP; rw [h]; decide +kernel
example : sqrtsModP (fun _ => 3) 5 11 = some (.ok [4, 7]) ∧ sqrtsModP (fun _ => 3) 10 13 = some (.ok [6, 7]) ∧
    sqrtsModP (fun _ => 3) 3 7 = some (.ok []) ∧ sqrtsModP (fun _ => 3) (-26) 13 = some (.ok [0]) := by
  decide +kernel

/-! ## C21 -/

/-- `_quadratic_lift(a, r, p, k)` for prime `p`: ValueError unless `k ≥ 1` and
`r^2 ≡ a (mod p^k)`; otherwise the strictly increasing list of all lifts `r + t p^k` with
`0 ≤ t < p` that are roots modulo `p^(k+1)`. -/
theorem C21_quadratic_lift (a r : Int) (p k : Nat) (hp : p.Prime) :
    (¬ (1 ≤ k ∧ (p : Int) ^ k ∣ r ^ 2 - a) → quadraticLift a r p k = .error .valueError) ∧
    (1 ≤ k → (p : Int) ^ k ∣ r ^ 2 - a →
      ∃ L, quadraticLift a r p k = .ok L ∧ L.Pairwise (· < ·) ∧
        ∀ x, x ∈ L ↔ (∃ t : Nat, t < p ∧ x = r + t * (p : Int) ^ k) ∧ (p : Int) ^ (k + 1) ∣ x ^ 2 - a) := by
  have hp2 := hp.two_le
  have hcast : ((p ^ k : Nat) : Int) = (p : Int) ^ k := by push_cast; rfl
  have hcast1 : ((p ^ (k + 1) : Nat) : Int) = (p : Int) ^ (k + 1) := by push_cast; rfl
  have hmod : ∀ (m : Nat) (z : Int), z.fmod m = 0 ↔ (m : Int) ∣ z := by
    intro m z; rw [fmod_nat]; exact (Int.dvd_iff_emod_eq_zero).symm
  constructor
  · intro h
    unfold quadraticLift
    by_cases hk : k < 1
    · rw [if_pos hk]
    · rw [if_neg hk, if_neg (by omega), if_pos]
      rw [ne_eq, hmod, hcast]
      intro hd
      exact h ⟨by omega, by rw [sq]; exact hd⟩
  · intro hk hd
    rw [sq] at hd
    unfold quadraticLift
    rw [if_neg (by omega), if_neg (by omega), if_neg (by rw [ne_eq, hmod, hcast, not_not]; exact hd)]
    simp only [ne_eq, hmod, hcast, hcast1]
    obtain ⟨c, hc⟩ := hd
    have hP0 : (0 : Int) < (p : Int) ^ k := by positivity
    have hdiv : (r * r - a).fdiv ((p : Int) ^ k) = c := by
      rw [hc, Int.fdiv_eq_ediv_of_nonneg _ hP0.le, Int.mul_ediv_cancel_left _ hP0.ne']
    -- divisibility of the lift
    have hlift : ∀ t : Int, (p : Int) ^ (k + 1) ∣ (r + t * (p : Int) ^ k) ^ 2 - a ↔ (p : Int) ∣ c + 2 * r * t := by
      intro t
      obtain ⟨k', rfl⟩ : ∃ k', k = k' + 1 := ⟨k - 1, by omega⟩
      have h1 : (r + t * (p : Int) ^ (k' + 1)) ^ 2 - a =
          (p : Int) ^ (k' + 1) * (c + 2 * r * t) + (p : Int) ^ (k' + 1 + 1) * (t ^ 2 * (p : Int) ^ k') := by
        linear_combination hc
      rw [h1, (Int.dvd_add_left (Dvd.intro _ rfl)), pow_succ (p : Int) (k' + 1)]
      constructor
      · intro h; exact Int.dvd_of_mul_dvd_mul_left hP0.ne' h
      · intro h; exact mul_dvd_mul_left _ h
    split
    · rename_i h2r
      have hcop : IsCoprime (2 * r) (p : Int) := by
        rw [isCoprime_comm]
        exact (Nat.prime_iff_prime_int.1 hp).coprime_iff_not_dvd.2 h2r
      obtain ⟨b, hb, hb0, hb1, hb2⟩ := inverseMod_ok (by omega) hcop
      rw [hb]
      dsimp only
      rw [hdiv]
      refine ⟨_, rfl, by simp, fun x => ?_⟩
      have hb3 : ((2 * r * b : Int) : ZMod p) = ((1 : Int) : ZMod p) := (ZMod.intCast_eq_intCast_iff _ _ _).2 hb2
      push_cast at hb3
      simp only [List.mem_singleton]
      have hroot : ∀ t : Int, 0 ≤ t → t < p → ((p : Int) ∣ c + 2 * r * t ↔ t = (-b * c).fmod p) := by
        intro t t0 t1
        have e : c + 2 * r * t = c - (-(2 * r * t)) := by ring
        rw [e, ← cast_eq_iff_dvd]
        push_cast
        constructor
        · intro h
          apply eq_of_cast t0 t1 (fmod_nonneg _ hp.pos) (fmod_lt _ hp.pos)
          rw [cast_fmod]
          push_cast
          linear_combination -(t : ZMod p) * hb3 + (b : ZMod p) * h
        · rintro h
          have h' := congrArg (fun z : Int => (z : ZMod p)) h
          simp only [cast_fmod] at h'
          push_cast at h'
          rw [h']
          linear_combination -(c : ZMod p) * hb3
      constructor
      · rintro rfl
        refine ⟨⟨((-b * c).fmod p).toNat, ?_, ?_⟩, ?_⟩
        · have := fmod_lt (-b * c) hp.pos
          have := fmod_nonneg (-b * c) hp.pos
          omega
        · rw [Int.toNat_of_nonneg (fmod_nonneg _ hp.pos)]
        · rw [hlift, hroot _ (fmod_nonneg _ hp.pos) (fmod_lt _ hp.pos)]
      · rintro ⟨⟨t, ht, rfl⟩, h⟩
        rw [hlift, hroot _ (by positivity) (by exact_mod_cast ht)] at h
        rw [h]
    · rename_i h2r
      rw [not_not] at h2r
      have hall : ∀ t : Int, (p : Int) ∣ c + 2 * r * t ↔ (p : Int) ∣ c := by
        intro t
        exact Int.dvd_add_left (Dvd.dvd.mul_right h2r t)
      have hbase : (p : Int) ^ (k + 1) ∣ r * r - a ↔ (p : Int) ∣ c := by
        rw [hc, pow_succ]
        constructor
        · intro h; exact Int.dvd_of_mul_dvd_mul_left hP0.ne' h
        · intro h; exact mul_dvd_mul_left _ h
      split
      · rename_i h
        rw [← hcast1, hmod, hcast1, hbase] at h
        refine ⟨_, rfl, pySort_int_lt _ ?_, fun x => ?_⟩
        · refine List.Nodup.map_on ?_ List.nodup_range
          intro x _ y _ hxy
          have : (x : Int) * (p : Int) ^ k = y * (p : Int) ^ k := by linarith
          have := mul_right_cancel₀ hP0.ne' this
          exact_mod_cast this
        · rw [mem_pySort, List.mem_map]
          constructor
          · rintro ⟨t, ht, rfl⟩
            exact ⟨⟨t, List.mem_range.1 ht, rfl⟩, by rw [hlift, hall]; exact h⟩
          · rintro ⟨⟨t, ht, rfl⟩, -⟩
            exact ⟨t, List.mem_range.2 ht, rfl⟩
      · rename_i h
        rw [← hcast1, hmod, hcast1, hbase] at h
        refine ⟨_, rfl, List.Pairwise.nil, fun x => ?_⟩
        simp only [List.not_mem_nil, false_iff]
        rintro ⟨⟨t, ht, rfl⟩, h1⟩
        rw [hlift, hall] at h1
        exact h h1

example : quadraticLift 119 5154 11213 1 = .ok [5869553] ∧
    quadraticLift 0 0 7 1 = .ok [0, 7, 14, 21, 28, 35, 42] ∧ quadraticLift 3 2 7 1 = .error .valueError := by
  decide +kernel

/-- `sols` lists without repetition the roots of `x^2 ≡ a` in `[0, m)`. -/
def RootList (a m : Int) (sols : List Int) : Prop :=
  sols.Nodup ∧ ∀ x, x ∈ sols ↔ 0 ≤ x ∧ x < m ∧ m ∣ x ^ 2 - a

theorem liftAll_spec (a : Int) (p e : Nat) (hp : p.Prime) (he : 1 ≤ e) : ∀ sols : List Int,
    sols.Nodup → (∀ r ∈ sols, 0 ≤ r ∧ r < (p : Int) ^ e ∧ (p : Int) ^ e ∣ r ^ 2 - a) →
    ∃ L, liftAll a p e sols = .ok L ∧ L.Nodup ∧
      ∀ x, x ∈ L ↔ ∃ r ∈ sols, (∃ t : Nat, t < p ∧ x = r + t * (p : Int) ^ e) ∧
        (p : Int) ^ (e + 1) ∣ x ^ 2 - a := by
  have hP0 : (0 : Int) < (p : Int) ^ e := by have := hp.pos; positivity
  intro sols
  induction sols with
  | nil => intro _ _; exact ⟨[], rfl, List.nodup_nil, by simp⟩
  | cons r rest ih =>
    intro hnd hr
    obtain ⟨n1, n2⟩ := List.nodup_cons.1 hnd
    obtain ⟨L', h1, h2, h3⟩ := ih n2 (fun r' h => hr r' (by simp [h]))
    obtain ⟨r0, r1, r2⟩ := hr r (by simp)
    obtain ⟨L, g1, g2, g3⟩ := (C21_quadratic_lift a r p e hp).2 he r2
    refine ⟨L ++ L', by simp [liftAll, g1, h1], ?_, ?_⟩
    · rw [List.nodup_append]
      refine ⟨g2.imp (fun h => ne_of_lt h), h2, ?_⟩
      rintro x hx _ hy rfl
      obtain ⟨⟨t, -, ht⟩, -⟩ := (g3 x).1 hx
      obtain ⟨r', hr', ⟨t', -, ht'⟩, -⟩ := (h3 x).1 hy
      obtain ⟨r0', r1', -⟩ := hr r' (by simp [hr'])
      have e1 : x % (p : Int) ^ e = r := by
        rw [ht, Int.add_mul_emod_self_right, Int.emod_eq_of_lt r0 r1]
      have e2 : x % (p : Int) ^ e = r' := by
        rw [ht', Int.add_mul_emod_self_right, Int.emod_eq_of_lt r0' r1']
      rw [e1] at e2
      exact n1 (e2 ▸ hr')
    · intro x
      rw [List.mem_append, g3, h3]
      simp only [List.mem_cons, exists_eq_or_imp]

theorem rootList_lift (a : Int) (p e : Nat) (hp : p.Prime) (he : 1 ≤ e) (sols : List Int)
    (h : RootList a ((p : Int) ^ e) sols) :
    ∃ L, liftAll a p e sols = .ok L ∧ RootList a ((p : Int) ^ (e + 1)) L := by
  have hP0 : (0 : Int) < (p : Int) ^ e := by have := hp.pos; positivity
  obtain ⟨L, h1, h2, h3⟩ := liftAll_spec a p e hp he sols h.1 (fun r hr => (h.2 r).1 hr)
  refine ⟨L, h1, h2, fun x => ?_⟩
  rw [h3]
  constructor
  · rintro ⟨r, hr, ⟨t, ht, rfl⟩, hd⟩
    obtain ⟨r0, r1, -⟩ := (h.2 r).1 hr
    refine ⟨by positivity, ?_, hd⟩
    have : (t : Int) + 1 ≤ p := by exact_mod_cast ht
    rw [pow_succ]
    nlinarith
  · rintro ⟨x0, x1, x2⟩
    have hdm := Int.emod_add_mul_ediv x ((p : Int) ^ e)
    have q0 : 0 ≤ x / (p : Int) ^ e := Int.ediv_nonneg x0 hP0.le
    have q1 : x / (p : Int) ^ e < p := by
      apply Int.ediv_lt_of_lt_mul hP0
      rw [pow_succ] at x1
      linarith
    refine ⟨x % (p : Int) ^ e, ?_, ⟨(x / (p : Int) ^ e).toNat, by omega, ?_⟩, x2⟩
    · rw [h.2]
      refine ⟨Int.emod_nonneg _ hP0.ne', Int.emod_lt_of_pos _ hP0, ?_⟩
      have h4 : (p : Int) ^ e ∣ x ^ 2 - a := (pow_dvd_pow _ (by omega)).trans x2
      have h5 : (p : Int) ^ e ∣ x - x % (p : Int) ^ e := Int.dvd_self_sub_emod
      have h6 : (x % (p : Int) ^ e) ^ 2 - a =
          (x ^ 2 - a) - (x - x % (p : Int) ^ e) * (x + x % (p : Int) ^ e) := by ring
      rw [h6]
      exact Int.dvd_sub h4 (h5.mul_right _)
    · rw [Int.toNat_of_nonneg q0, mul_comm]
      exact hdm.symm

theorem liftLoop_spec (a : Int) (p : Nat) (hp : p.Prime) : ∀ (j e : Nat) (sols : List Int), 1 ≤ e →
    RootList a ((p : Int) ^ e) sols →
    ∃ L, liftLoop a p e j sols = .ok L ∧ RootList a ((p : Int) ^ (e + j)) L := by
  intro j
  induction j with
  | zero => intro e sols _ h; exact ⟨sols, rfl, h⟩
  | succ j ih =>
    intro e sols he h
    obtain ⟨L, h1, h2⟩ := rootList_lift a p e hp he sols h
    obtain ⟨L', h3, h4⟩ := ih (e + 1) L (by omega) h2
    refine ⟨L', by simp [liftLoop, h1, h3], ?_⟩
    rw [show e + (j + 1) = e + 1 + j by omega]
    exact h4

theorem RootList.sort {a m : Int} {sols : List Int} (h : RootList a m sols) :
    (pySort sols (· ≤ ·)).Pairwise (· < ·) ∧
      ∀ x, x ∈ pySort sols (· ≤ ·) ↔ 0 ≤ x ∧ x < m ∧ m ∣ x ^ 2 - a :=
  ⟨pySort_int_lt _ h.1, fun x => by rw [mem_pySort]; exact h.2 x⟩

theorem brute_spec (a : Int) (m : Nat) (hm : 0 < m) (l : List Int) (hl : l.Nodup)
    (hmem : ∀ x, x ∈ l ↔ 0 ≤ x ∧ x < m) :
    RootList a m (l.filter (fun e => (e * e).fmod m = a.fmod m)) := by
  refine ⟨hl.filter _, fun x => ?_⟩
  rw [List.mem_filter, hmem, decide_eq_true_eq, and_assoc]
  have : (x * x).fmod m = a.fmod m ↔ (m : Int) ∣ x ^ 2 - a := by
    rw [← cast_eq_iff_dvd, fmod_nat, fmod_nat, ZMod.intCast_eq_intCast_iff, sq]
    rfl
  rw [this]

/-- `_sqrts_mod_pk(a, p, k)` for prime `p` and `k ≥ 1`. -/
theorem C21_sqrts_mod_pk (rnd : Nat → Int) (a : Int) (p k : Nat) (hp : p.Prime) (hk : 1 ≤ k)
    (r : Except PyErr (List Int)) (h : sqrtsModPk rnd a p k = some r) :
    ∃ L, r = .ok L ∧ L.Pairwise (· < ·) ∧
      ∀ x, x ∈ L ↔ 0 ≤ x ∧ x < (p : Int) ^ k ∧ (p : Int) ^ k ∣ x ^ 2 - a := by
  unfold sqrtsModPk at h
  split at h
  · rename_i h1
    subst h1
    simp only [pow_one]
    exact C20_sqrts_mod_p rnd a p hp r h
  · rename_i hk1
    split at h
    · rename_i h2
      subst h2
      split at h
      · rename_i hk2
        subst hk2
        cases h
        refine ⟨_, rfl, RootList.sort ?_⟩
        have := brute_spec a 4 (by norm_num) [0, 1, 2, 3] (by decide) (by intro x; simp; omega)
        exact this
      · rename_i hk2
        have h8 : RootList a ((2 : Nat) ^ 3 : Int)
            (([0, 1, 2, 3, 4, 5, 6, 7] : List Int).filter (fun e => (e * e).fmod 8 = a.fmod 8)) :=
          brute_spec a 8 (by norm_num) [0, 1, 2, 3, 4, 5, 6, 7] (by decide) (by intro x; simp; omega)
        dsimp only at h
        generalize ([0, 1, 2, 3, 4, 5, 6, 7] : List Int).filter
          (fun e => (e * e).fmod 8 = a.fmod 8) = sols at *
        split at h
        · rename_i hcond
          obtain ⟨L, g1, g2⟩ := liftLoop_spec a 2 hp (k - 3) 3 sols (by norm_num) h8
          rw [g1] at h
          dsimp only at h
          cases h
          rw [show 3 + (k - 3) = k by omega] at g2
          exact ⟨_, rfl, g2.sort⟩
        · rename_i hcond
          cases h
          refine ⟨_, rfl, RootList.sort ?_⟩
          rcases Nat.lt_or_ge 3 k with hk3 | hk3
          · have : sols = [] := by by_contra hc; exact hcond ⟨hk3, hc⟩
            subst this
            refine ⟨List.nodup_nil, fun x => ?_⟩
            simp only [List.not_mem_nil, false_iff]
            rintro ⟨x0, x1, x2⟩
            have h9 : (((2 : Nat) : Int) ^ 3) ∣ x ^ 2 - a := (pow_dvd_pow _ hk3.le).trans x2
            have h10 := (h8.2 (x % 8)).2 ⟨by omega, by push_cast; omega, by
              have e : (x % 8) ^ 2 - a = (x ^ 2 - a) - (x - x % 8) * (x + x % 8) := by ring
              rw [e]
              refine Int.dvd_sub h9 (Dvd.dvd.mul_right ?_ _)
              push_cast
              norm_num
              omega⟩
            simp at h10
          · have : k = 3 := by omega
            subst this
            exact h8
    · rename_i h2
      split at h
      · cases h
      · rename_i e he
        obtain ⟨L, h3, -⟩ := C20_sqrts_mod_p rnd a p hp _ he
        cases h3
      · rename_i sols hs
        obtain ⟨L, h3, h4, h5⟩ := C20_sqrts_mod_p rnd a p hp _ hs
        cases h3
        have hr : RootList a ((p : Int) ^ 1) sols := by
          refine ⟨h4.imp (fun h => ne_of_lt h), ?_⟩
          rw [pow_one]; exact h5
        obtain ⟨L, g1, g2⟩ := liftLoop_spec a p hp (k - 1) 1 sols (by norm_num) hr
        rw [g1] at h
        dsimp only at h
        cases h
        rw [show 1 + (k - 1) = k by omega] at g2
        exact ⟨_, rfl, g2.sort⟩

theorem rootsPerPrime_spec (rnd : Nat → Nat → Int) (a : Int) : ∀ (fac : List (Nat × Nat)),
    (∀ pe ∈ fac, pe.1.Prime) → (∀ pe ∈ fac, 1 ≤ pe.2) → ∀ r, rootsPerPrime rnd a fac = some r →
    ∃ Ls, r = .ok Ls ∧ List.Forall₂ (fun L m => RootList a m L) Ls
      (fac.map (fun pe => ((pe.1 ^ pe.2 : Nat) : Int))) := by
  intro fac
  induction fac with
  | nil => intro _ _ r h; cases h; exact ⟨[], rfl, List.Forall₂.nil⟩
  | cons pe rest ih =>
    intro hp he r h
    obtain ⟨p, k⟩ := pe
    rw [rootsPerPrime] at h
    split at h
    · cases h
    · rename_i e hs
      obtain ⟨L, h3, -⟩ := C21_sqrts_mod_pk _ a p k (hp (p, k) (by simp)) (he (p, k) (by simp)) _ hs
      cases h3
    · rename_i roots hs
      obtain ⟨L, h3, h4, h5⟩ := C21_sqrts_mod_pk _ a p k (hp (p, k) (by simp)) (he (p, k) (by simp)) _ hs
      cases h3
      split at h
      · cases h
      · rename_i e hs2
        obtain ⟨Ls, g1, -⟩ := ih (fun q hq => hp q (by simp [hq])) (fun q hq => he q (by simp [hq])) _ hs2
        cases g1
      · rename_i more hs2
        obtain ⟨Ls, g1, g2⟩ := ih (fun q hq => hp q (by simp [hq])) (fun q hq => he q (by simp [hq])) _ hs2
        cases g1
        cases h
        refine ⟨_, rfl, List.Forall₂.cons ⟨h4.imp (fun h => ne_of_lt h), ?_⟩ g2⟩
        push_cast
        exact h5

theorem mem_cartesian {α : Type} (Ls : List (List α)) (s : List α) :
    s ∈ cartesian Ls ↔ List.Forall₂ (fun x L => x ∈ L) s Ls := by
  induction Ls generalizing s with
  | nil => simp [cartesian]
  | cons L Ls ih =>
    rw [cartesian, List.mem_flatMap, List.forall₂_cons_right_iff]
    constructor
    · rintro ⟨x, hx, h⟩
      obtain ⟨t, ht, rfl⟩ := List.mem_map.1 h
      exact ⟨x, t, hx, (ih t).1 ht, rfl⟩
    · rintro ⟨x, t, hx, ht, rfl⟩
      exact ⟨x, hx, List.mem_map.2 ⟨t, (ih t).2 ht, rfl⟩⟩

theorem nodup_cartesian {α : Type} (Ls : List (List α)) (h : ∀ L ∈ Ls, L.Nodup) : (cartesian Ls).Nodup := by
  induction Ls with
  | nil => simp [cartesian]
  | cons L Ls ih =>
    rw [cartesian, List.nodup_flatMap]
    constructor
    · intro x _
      exact (ih (fun L' h' => h L' (by simp [h']))).map (fun a b hab => (List.cons.inj hab).2)
    · refine (h L (by simp)).imp ?_
      intro x y hxy
      simp only [Function.onFun, List.disjoint_left]
      intro s hs hs'
      obtain ⟨t, -, rfl⟩ := List.mem_map.1 hs
      obtain ⟨t', -, h2⟩ := List.mem_map.1 hs'
      exact hxy (List.cons.inj h2).1.symm

theorem combineAll_spec (ms : List Int) (data : CrtData) (M : Int)
    (hdata : ∀ res : List Int, res.length = ms.length →
        ∃ x, chinesePreconditioned (res.zip ms) data = .ok x ∧
          List.Forall₂ (fun a m => m ∣ x - a) res ms ∧ 0 ≤ x ∧ x < M) :
    ∀ systems : List (List Int), (∀ s ∈ systems, s.length = ms.length) →
      ∃ vals, combineAll ms data systems = .ok vals ∧
        List.Forall₂ (fun s x => List.Forall₂ (fun a m => m ∣ x - a) s ms ∧ 0 ≤ x ∧ x < M) systems vals := by
  intro systems
  induction systems with
  | nil => intro _; exact ⟨[], rfl, List.Forall₂.nil⟩
  | cons s rest ih =>
    intro h
    obtain ⟨vals, h1, h2⟩ := ih (fun s' hs' => h s' (by simp [hs']))
    obtain ⟨x, g1, g2⟩ := hdata s (h s (by simp))
    exact ⟨x :: vals, by simp [combineAll, g1, h1], List.Forall₂.cons g2 h2⟩

theorem nodup_of_forall₂ {α β : Type} {R : α → β → Prop} {l : List α} {l' : List β}
    (h : List.Forall₂ R l l') (hl : l.Nodup)
    (hinj : ∀ a ∈ l, ∀ b ∈ l, ∀ x, R a x → R b x → a = b) : l'.Nodup := by
  induction h with
  | nil => exact List.nodup_nil
  | @cons a x l l' hax h ih =>
    obtain ⟨n1, n2⟩ := List.nodup_cons.1 hl
    refine List.nodup_cons.2 ⟨?_, ih n2 (fun a ha b hb x => hinj a (by simp [ha]) b (by simp [hb]) x)⟩
    intro hx
    have : ∀ {l : List α} {l' : List β}, List.Forall₂ R l l' → x ∈ l' → ∃ b ∈ l, R b x := by
      intro l l' h
      induction h with
      | nil => simp
      | @cons b y l l' hby h ih =>
        intro hx
        rcases List.mem_cons.1 hx with rfl | hx
        · exact ⟨b, by simp, hby⟩
        · obtain ⟨b, hb, hbx⟩ := ih hx
          exact ⟨b, by simp [hb], hbx⟩
    obtain ⟨b, hb, hbx⟩ := this h hx
    have := hinj a (by simp) b (by simp [hb]) x hax hbx
    subst this
    exact n1 hb

theorem forall₂_mem_left {α β : Type} {R : α → β → Prop} {l : List α} {l' : List β}
    (h : List.Forall₂ R l l') {a : α} (ha : a ∈ l) : ∃ x ∈ l', R a x := by
  induction h with
  | nil => simp at ha
  | @cons b y l l' hby h ih =>
    rcases List.mem_cons.1 ha with rfl | ha
    · exact ⟨y, by simp, hby⟩
    · obtain ⟨x, hx, hax⟩ := ih ha
      exact ⟨x, by simp [hx], hax⟩

theorem forall₂_mem_right {α β : Type} {R : α → β → Prop} {l : List α} {l' : List β}
    (h : List.Forall₂ R l l') {x : β} (hx : x ∈ l') : ∃ a ∈ l, R a x := by
  induction h with
  | nil => simp at hx
  | @cons b y l l' hby h ih =>
    rcases List.mem_cons.1 hx with rfl | hx
    · exact ⟨b, by simp, hby⟩
    · obtain ⟨a, ha, hax⟩ := ih hx
      exact ⟨a, by simp [ha], hax⟩

theorem prod_dvd_of_coprime : ∀ (ms : List Int), ms.Pairwise IsCoprime → ∀ z, (∀ m ∈ ms, m ∣ z) → ms.prod ∣ z := by
  intro ms
  induction ms with
  | nil => intro _ z _; simp
  | cons m ms ih =>
    intro h z hz
    obtain ⟨h1, h2⟩ := List.pairwise_cons.1 h
    rw [List.prod_cons]
    refine IsCoprime.mul_dvd ?_ (hz m (by simp)) (ih h2 z (fun m' hm' => hz m' (by simp [hm'])))
    have : ∀ l : List Int, (∀ c ∈ l, IsCoprime m c) → IsCoprime m l.prod := by
      intro l
      induction l with
      | nil => intro _; simpa using isCoprime_one_right
      | cons c l ih =>
        intro hc
        rw [List.prod_cons]
        exact IsCoprime.mul_right (hc c (by simp)) (ih (fun d hd => hc d (by simp [hd])))
    exact this ms h1

theorem coprime_moduli {fac : List (Nat × Nat)} (h : DistinctPrimes fac) :
    (fac.map (fun pe => ((pe.1 ^ pe.2 : Nat) : Int))).Pairwise IsCoprime := by
  have h1 := h.nodup
  rw [List.Nodup, List.pairwise_map] at h1
  rw [List.pairwise_map]
  have h2 : fac.Pairwise (fun a b => a.1.Prime ∧ b.1.Prime) := by
    rw [List.pairwise_iff_forall_sublist]
    intro a b hab
    exact ⟨h.prime a (hab.subset (by simp)), h.prime b (hab.subset (by simp))⟩
  refine (h1.and h2).imp ?_
  rintro a b ⟨hne, ha, hb⟩
  rw [Nat.isCoprime_iff_coprime]
  exact Nat.Coprime.pow _ _ ((Nat.coprime_primes ha hb).2 hne)

theorem moduli_prod (fac : List (Nat × Nat)) :
    (fac.map (fun pe => ((pe.1 ^ pe.2 : Nat) : Int))).prod = (facProd fac : Int) := by
  unfold facProd
  induction fac with
  | nil => simp
  | cons a l ih => simp only [List.map_cons, List.prod_cons, ih]; push_cast; ring

theorem crt_roots (a : Int) : ∀ (Ls : List (List Int)) (ms : List Int),
    List.Forall₂ (fun L m => RootList a m L) Ls ms → ms.Pairwise IsCoprime → (∀ m ∈ ms, 2 ≤ m) →
    ∀ vals, List.Forall₂ (fun s x => List.Forall₂ (fun a m => m ∣ x - a) s ms ∧ 0 ≤ x ∧ x < ms.prod)
      (cartesian Ls) vals → RootList a ms.prod vals := by
  intro Ls ms hL hco hpos vals hv
  have hsys : ∀ s x, s ∈ cartesian Ls → List.Forall₂ (fun a m => m ∣ x - a) s ms →
      s = ms.map (fun m => x % m) ∧ ∀ m ∈ ms, m ∣ x ^ 2 - a := by
    intro s x hs hx
    rw [mem_cartesian] at hs
    clear hv hco
    induction hL generalizing s with
    | nil =>
      cases hs
      exact ⟨rfl, by simp⟩
    | @cons L m Ls ms hLm hL ih =>
      cases hs with
      | @cons y _ t _ hy ht =>
        cases hx with
        | cons hym hx =>
          obtain ⟨i1, i2⟩ := ih (fun m' hm' => hpos m' (by simp [hm'])) t ht hx
          obtain ⟨y0, y1, y2⟩ := (hLm.2 y).1 hy
          have hxy : x % m = y := by
            have : x % m = y % m := ((Int.modEq_iff_dvd).2 hym).eq.symm
            rw [this, Int.emod_eq_of_lt y0 y1]
          refine ⟨by rw [List.map_cons, hxy, ← i1], ?_⟩
          intro m' hm'
          rcases List.mem_cons.1 hm' with rfl | hm'
          · have e : x ^ 2 - a = (y ^ 2 - a) + (x - y) * (x + y) := by ring
            rw [e]
            exact dvd_add y2 (hym.mul_right _)
          · exact i2 m' hm'
  have hLn : ∀ L ∈ Ls, L.Nodup := by
    intro L hLm
    obtain ⟨m, -, h⟩ := forall₂_mem_left hL hLm
    exact h.1
  constructor
  · refine nodup_of_forall₂ hv (nodup_cartesian Ls hLn) ?_
    rintro s hs s' hs' x ⟨h1, -⟩ ⟨h2, -⟩
    rw [(hsys s x hs h1).1, (hsys s' x hs' h2).1]
  · intro x
    constructor
    · intro hx
      obtain ⟨s, hs, h1, h2, h3⟩ := forall₂_mem_right hv hx
      exact ⟨h2, h3, prod_dvd_of_coprime ms hco _ (hsys s x hs h1).2⟩
    · rintro ⟨x0, x1, x2⟩
      have hs : ms.map (fun m => x % m) ∈ cartesian Ls := by
        rw [mem_cartesian]
        have hdv : ∀ m ∈ ms, m ∣ x ^ 2 - a := fun m hm => (List.dvd_prod hm).trans x2
        clear hv hco hsys x1 x2
        induction hL with
        | nil => exact List.Forall₂.nil
        | @cons L m Ls ms hLm hL ih =>
          have hm2 := hpos m (by simp)
          refine List.Forall₂.cons ?_ (ih (fun m' hm' => hpos m' (by simp [hm']))
            (fun L' hL' => hLn L' (by simp [hL'])) (fun m' hm' => hdv m' (by simp [hm'])))
          rw [hLm.2]
          refine ⟨Int.emod_nonneg _ (by omega), Int.emod_lt_of_pos _ (by omega), ?_⟩
          have e : (x % m) ^ 2 - a = (x ^ 2 - a) - (x - x % m) * (x + x % m) := by ring
          rw [e]
          exact Int.dvd_sub (hdv m (by simp)) (Dvd.dvd.mul_right Int.dvd_self_sub_emod _)
      obtain ⟨y, hy, h1, h2, h3⟩ := forall₂_mem_left hv hs
      have hyx : ∀ m ∈ ms, m ∣ y - x := by
        have h4 : ∀ l : List Int, List.Forall₂ (fun a m => m ∣ y - a) (l.map (fun m => x % m)) l →
            ∀ m ∈ l, m ∣ y - x := by
          intro l
          induction l with
          | nil => simp
          | cons m l ih =>
            intro h
            rw [List.map_cons] at h
            cases h with
            | cons h5 h6 =>
              intro m' hm'
              rcases List.mem_cons.1 hm' with rfl | hm'
              · have e : y - x = (y - x % m') - (x - x % m') := by ring
                rw [e]
                exact Int.dvd_sub h5 Int.dvd_self_sub_emod
              · exact ih h6 m' hm'
        exact h4 ms h1
      have h5 := prod_dvd_of_coprime ms hco _ hyx
      have h6 := Int.eq_zero_of_abs_lt_dvd h5 (by rw [abs_lt]; omega)
      have : y = x := by omega
      exact this ▸ hy

/-- `sqrts_mod_n(a, n)` for `n ≥ 2`, given the factorization of `n` and whatever random choices:
if the nonresidue searches end, the result is the strictly increasing list of all square roots
of `a` modulo `n`. -/
theorem C21_sqrts_mod_n (rnd : Nat → Nat → Int) (a : Int) (n : Nat) (hn : 2 ≤ n)
    (fac : List (Nat × Nat)) (hf : FactorsTo fac n)
    (r : Except PyErr (List Int)) (h : sqrtsModN rnd a fac = some r) :
    ∃ L, r = .ok L ∧ L.Pairwise (· < ·) ∧
      ∀ x, x ∈ L ↔ 0 ≤ x ∧ x < n ∧ (n : Int) ∣ x ^ 2 - a := by
  have hprod := moduli_prod fac
  rw [hf.prod] at hprod
  have hco := coprime_moduli hf.primes
  have hge : ∀ m ∈ fac.map (fun pe => ((pe.1 ^ pe.2 : Nat) : Int)), 2 ≤ m := by
    intro m hm
    obtain ⟨pe, hpe, rfl⟩ := List.mem_map.1 hm
    have h1 := (hf.primes.prime pe hpe).two_le
    have h2 := hf.pos pe hpe
    have : 2 ≤ pe.1 ^ pe.2 := le_trans h1 (Nat.le_self_pow (by omega) _)
    exact_mod_cast this
  have hne : fac.map (fun pe => ((pe.1 ^ pe.2 : Nat) : Int)) ≠ [] := by
    intro hc
    rw [hc] at hprod
    simp at hprod
    omega
  unfold sqrtsModN at h
  split at h
  · cases h
  · rename_i e he
    obtain ⟨Ls, h1, -⟩ := rootsPerPrime_spec rnd a fac hf.primes.prime hf.pos _ he
    cases h1
  · rename_i Ls hLs
    obtain ⟨Ls', h1, h2⟩ := rootsPerPrime_spec rnd a fac hf.primes.prime hf.pos _ hLs
    cases h1
    dsimp only at h
    rw [← hprod]
    generalize fac.map (fun pe => ((pe.1 ^ pe.2 : Nat) : Int)) = ms at *
    split at h
    · rename_i roots
      cases h
      cases h2 with
      | @cons _ m _ l h3 h4 =>
        cases h4
        rw [List.prod_singleton]
        exact ⟨_, rfl, h3.sort⟩
    · obtain ⟨data, g1, g2⟩ := C11_chinese_preconditioned ms hne hge hco
      rw [g1] at h
      dsimp only at h
      obtain ⟨vals, g3, g4⟩ := combineAll_spec ms data ms.prod g2 (cartesian Ls) (by
        intro s hs
        rw [mem_cartesian] at hs
        rw [hs.length_eq, h2.length_eq])
      rw [g3] at h
      dsimp only at h
      cases h
      exact ⟨_, rfl, (crt_roots a Ls ms h2 hco hge vals g4).sort⟩

theorem rootsPerPrime_total (rnd : Nat → Nat → Int) (a : Int) : ∀ (fac : List (Nat × Nat)),
    (∀ pe ∈ fac, pe.1.Prime) →
    (∀ pe ∈ fac, pe.1 % 8 = 1 → ∃ i, ¬ IsSquare ((rnd pe.1 i : Int) : ZMod pe.1)) →
    ∃ r, rootsPerPrime rnd a fac = some r := by
  intro fac
  induction fac with
  | nil => intro _ _; exact ⟨_, rfl⟩
  | cons pe rest ih =>
    intro hp h
    obtain ⟨p, k⟩ := pe
    obtain ⟨r, hr⟩ := ih (fun q hq => hp q (by simp [hq])) (fun q hq => h q (by simp [hq]))
    obtain ⟨s, hs⟩ := C20_sqrts_mod_p_total (rnd p) a p (hp (p, k) (by simp)) (h (p, k) (by simp))
    have hpk : ∃ s', sqrtsModPk (rnd p) a p k = some s' := by
      unfold sqrtsModPk
      rw [hs]
      split
      · exact ⟨_, rfl⟩
      · split
        · split
          · exact ⟨_, rfl⟩
          · dsimp only
            split
            · split <;> exact ⟨_, rfl⟩
            · exact ⟨_, rfl⟩
        · rcases s with e | sols
          · exact ⟨_, rfl⟩
          · dsimp only
            split <;> exact ⟨_, rfl⟩
    obtain ⟨s', hs'⟩ := hpk
    rw [rootsPerPrime, hs', hr]
    rcases s' with e | l
    · exact ⟨_, rfl⟩
    · rcases r with e | l'
      · exact ⟨_, rfl⟩
      · exact ⟨_, rfl⟩

/-- `sqrts_mod_n` ends whenever the random choices for each prime `p ≡ 1 (mod 8)` contain a
nonresidue. -/
theorem C21_sqrts_mod_n_total (rnd : Nat → Nat → Int) (a : Int) (n : Nat)
    (fac : List (Nat × Nat)) (hf : FactorsTo fac n)
    (h : ∀ pe ∈ fac, pe.1 % 8 = 1 → ∃ i, ¬ IsSquare ((rnd pe.1 i : Int) : ZMod pe.1)) :
    ∃ r, sqrtsModN rnd a fac = some r := by
  obtain ⟨r, hr⟩ := rootsPerPrime_total rnd a fac hf.primes.prime h
  unfold sqrtsModN
  rw [hr]
  rcases r with e | Ls
  · exact ⟨_, rfl⟩
  · dsimp only
    split
    · exact ⟨_, rfl⟩
    · split
      · exact ⟨_, rfl⟩
      · split <;> exact ⟨_, rfl⟩

/-- For `n = 1` (whose factorization is empty) IndexError is raised. -/
theorem C21_sqrts_mod_n_one (rnd : Nat → Nat → Int) (a : Int) :
    sqrtsModN rnd a [] = some (.error .indexError) := rfl

example : FactorsTo [(11, 4), (23, 3)] (11 ^ 4 * 23 ^ 3) ∧
    sqrtsModN (fun _ _ => 3) 3 [(11, 4), (23, 3)] =
      some (.ok [16152263, 28026114, 150110933, 161984784]) ∧
    sqrtsModN (fun _ _ => 3) (-1) [(5, 3), (7, 2)] = some (.ok []) ∧
    sqrtsModN (fun _ _ => 3) 17 [(2, 5)] = some (.ok [7, 9, 23, 25]) :=
  ⟨⟨⟨by intro pe h; simp at h; rcases h with rfl | rfl <;> norm_num, by decide⟩, by decide, by decide⟩,
    by decide +kernel, by decide +kernel, by decide +kernel⟩

end Rosemary.Props

namespace Rosemary.Props

open Rosemary.Core Rosemary.ArithFunctions Rosemary.Factorization Rosemary.Zn

/-! ## C22 -/

theorem splitCoprime_correct (n a1 a2 : Int) (r : Int × Int) (hn : 2 ≤ n)
    (h : splitCoprime n a1 a2 = some r) :
    r.1 * r.2 = a1 * a2 ∧ (0 < a1 → 0 < r.1) ∧ ((∃ k, a1 ∣ n ^ k) → ∃ k, r.1 ∣ n ^ k) ∧
      Int.gcd n r.2 = 1 ∧ a2 ≠ 0 := by
  revert r
  have := splitCoprime.partial_correctness n
    (fun a1 a2 r => r.1 * r.2 = a1 * a2 ∧ (0 < a1 → 0 < r.1) ∧ ((∃ k, a1 ∣ n ^ k) → ∃ k, r.1 ∣ n ^ k) ∧
      Int.gcd n r.2 = 1 ∧ a2 ≠ 0) ?_ a1 a2
  · exact fun r h => this r h
  intro f ih a1 a2 r h
  dsimp only at h
  rw [gcd_eq] at h
  split at h
  · rename_i hd
    obtain ⟨i1, i2, i3, i4, i5⟩ := ih _ _ _ h
    have hdvd : (Int.gcd n a2 : Int) ∣ a2 := Int.gcd_dvd_right ..
    have hdn : (Int.gcd n a2 : Int) ∣ n := Int.gcd_dvd_left ..
    generalize (Int.gcd n a2 : Int) = d at *
    obtain ⟨c, rfl⟩ := hdvd
    have hdiv : (d * c).fdiv d = c := by
      rw [Int.fdiv_eq_ediv_of_nonneg _ (by omega), Int.mul_ediv_cancel_left _ (by omega)]
    rw [hdiv] at i1 i5
    refine ⟨by rw [i1]; ring, fun h0 => i2 (by positivity), ?_, i4, ?_⟩
    · rintro ⟨k, hk⟩
      apply i3
      exact ⟨k + 1, by rw [pow_succ]; exact mul_dvd_mul hk hdn⟩
    · exact mul_ne_zero (by omega) i5
  · rename_i hd
    cases h
    have hpos : 0 < Int.gcd n a2 := Int.gcd_pos_of_ne_zero_left a2 (show n ≠ 0 by omega)
    refine ⟨rfl, id, id, ?_, ?_⟩
    · have : Int.gcd n a2 ≤ 1 := by exact_mod_cast not_lt.1 hd
      show Int.gcd n a2 = 1
      omega
    rintro rfl
    rw [Int.gcd_zero_right] at hd
    omega

theorem splitCoprime_total (n : Int) (hn : 2 ≤ n) : ∀ (N : Nat) (a1 a2 : Int), a2 ≠ 0 → a2.natAbs ≤ N →
    ∃ r, splitCoprime n a1 a2 = some r := by
  intro N
  induction N with
  | zero => intro a1 a2 h0 h; omega
  | succ N ih =>
    intro a1 a2 h0 h
    rw [splitCoprime, gcd_eq]
    split
    · rename_i hd
      have hdvd : (Int.gcd n a2 : Int) ∣ a2 := Int.gcd_dvd_right ..
      generalize (Int.gcd n a2 : Int) = d at *
      obtain ⟨c, rfl⟩ := hdvd
      have hdiv : (d * c).fdiv d = c := by
        rw [Int.fdiv_eq_ediv_of_nonneg _ (by omega), Int.mul_ediv_cancel_left _ (by omega)]
      rw [hdiv]
      have hc : c ≠ 0 := by rintro rfl; simp at h0
      apply ih _ _ hc
      rw [Int.natAbs_mul] at h
      have : 2 ≤ d.natAbs := by omega
      have : 0 < c.natAbs := by omega
      nlinarith
    · exact ⟨_, rfl⟩

theorem linearAll_spec (a b m : Int) (hm : 2 ≤ m) : ∀ ys : List Int, ∃ L, linearAll a b m ys = .ok L ∧
    ∀ x, x ∈ L ↔ ∃ y ∈ ys, 0 ≤ x ∧ x < m ∧ m ∣ 2 * a * x - (y - b) := by
  intro ys
  induction ys with
  | nil => exact ⟨[], rfl, by simp⟩
  | cons y ys ih =>
    obtain ⟨L', h1, h2⟩ := ih
    obtain ⟨L, g1, -, g2⟩ := (C19_linear_congruence (2 * a) (y - b) m).2 hm
    refine ⟨L ++ L', by simp [linearAll, g1, h1], fun x => ?_⟩
    rw [List.mem_append, g2, h2]
    simp only [List.mem_cons, exists_eq_or_imp]

/-- `quadratic_congruence([a, b, c], n)` for `a ≠ 0` and `n ≥ 2`, given correct factorizations
and whatever random choices: if the nonresidue searches end, the result is the strictly
increasing list of all roots modulo `n`. -/
theorem C22_quadratic_congruence (rnd : Nat → Nat → Int) (a b c : Int) (n : Nat)
    (hn : 2 ≤ n) (fac : List (Nat × Nat)) (hf : FactorsTo fac n) (factorOf : Nat → List (Nat × Nat))
    (hfo : ∀ m, 2 ≤ m → FactorsTo (factorOf m) m)
    (r : Except PyErr (List Int)) (h : quadraticCongruence rnd a b c n fac factorOf = some r) :
    ∃ L, r = .ok L ∧ L.Pairwise (· < ·) ∧
      ∀ x, x ∈ L ↔ 0 ≤ x ∧ x < n ∧ (n : Int) ∣ a * x ^ 2 + b * x + c := by
  have hn0 : 0 < n := by omega
  unfold quadraticCongruence at h
  dsimp only at h
  rw [gcd_eq] at h
  split at h
  · rename_i hg
    have hg' : Int.gcd (2 * a) n = 1 := by exact_mod_cast hg
    split at h
    · cases h
    · rename_i e he
      obtain ⟨L, h1, -⟩ := C21_sqrts_mod_n rnd _ n hn fac hf _ he
      cases h1
    · rename_i ys hys
      obtain ⟨L, h1, h2, h3⟩ := C21_sqrts_mod_n rnd _ n hn fac hf _ hys
      cases h1
      obtain ⟨i, hi, i0, i1, i2⟩ := inverseMod_ok (a := 2 * a) (m := n) (by omega)
        (Int.isCoprime_iff_gcd_eq_one.2 hg')
      rw [hi] at h
      dsimp only at h
      cases h
      have hinv : (2 * a : ZMod n) * i = 1 := by
        have := (ZMod.intCast_eq_intCast_iff _ _ n).2 i2
        push_cast at this
        exact this
      have hdv : ∀ x : Int, (n : Int) ∣ a * x ^ 2 + b * x + c ↔
          ((2 * a * x + b : ZMod n)) ^ 2 = b * b - 4 * a * c := by
        intro x
        have e : a * x ^ 2 + b * x + c = a * x ^ 2 + b * x - (-c) := by ring
        rw [e, ← cast_eq_iff_dvd]
        push_cast
        constructor
        · intro h; linear_combination (4 * a : ZMod n) * h
        · intro h
          have h2i : (2 : ZMod n) * (a * i) = 1 := by linear_combination hinv
          linear_combination ((a * i : ZMod n)) * i * h - (a * x ^ 2 + b * x + c : ZMod n) * (2 * a * i + 1) * hinv
      have hsq : ∀ y : Int, (n : Int) ∣ y ^ 2 - (b * b - 4 * a * c) ↔ (y : ZMod n) ^ 2 = b * b - 4 * a * c := by
        intro y; rw [← cast_eq_iff_dvd]; push_cast; rfl
      refine ⟨_, rfl, pySort_int_lt _ ?_, fun x => ?_⟩
      · refine List.Nodup.map_on ?_ (h2.imp (fun h => ne_of_lt h))
        intro y hy z hz hyz
        obtain ⟨y0, y1, -⟩ := (h3 y).1 hy
        obtain ⟨z0, z1, -⟩ := (h3 z).1 hz
        apply eq_of_cast y0 y1 z0 z1
        have h4 := congrArg (fun w : Int => (w : ZMod n)) hyz
        simp only [cast_fmod] at h4
        push_cast at h4
        linear_combination (2 * a : ZMod n) * h4 - ((y : ZMod n) - z) * hinv
      · rw [mem_pySort, List.mem_map, hdv]
        constructor
        · rintro ⟨y, hy, rfl⟩
          obtain ⟨-, -, y2⟩ := (h3 y).1 hy
          rw [hsq] at y2
          refine ⟨fmod_nonneg _ hn0, fmod_lt _ hn0, ?_⟩
          rw [cast_fmod]
          push_cast
          have e : (2 * a * (((y : ZMod n) - b) * i) + b : ZMod n) = y := by
            linear_combination ((y : ZMod n) - b) * hinv
          rw [e, y2]
        · rintro ⟨x0, x1, x2⟩
          obtain ⟨y, y0, y1, hy⟩ := exists_rep hn0 (2 * a * x + b : ZMod n)
          refine ⟨y, (h3 y).2 ⟨y0, y1, by rw [hsq, hy, x2]⟩, ?_⟩
          apply eq_of_cast (fmod_nonneg _ hn0) (fmod_lt _ hn0) x0 x1
          rw [cast_fmod]
          push_cast
          rw [hy]
          linear_combination (x : ZMod n) * hinv
  · split at h
    · cases h
    · rename_i a1 a2 hsp
      obtain ⟨s1, s2, s3, s4, s5⟩ := splitCoprime_correct n 1 (4 * a) (a1, a2) (by omega) hsp
      dsimp only at s1 s2 s3 s4
      have ha1 : 0 < a1 := s2 (by norm_num)
      obtain ⟨k, hk⟩ := s3 ⟨0, by simp⟩
      rw [one_mul] at s1
      have hm2 : 2 ≤ a1 * n := by nlinarith
      have hmn : ((a1 * n).toNat : Int) = a1 * n := Int.toNat_of_nonneg (by omega)
      have hcop : IsCoprime (a1 * n) a2 := by
        have h1 : IsCoprime (n : Int) a2 := Int.isCoprime_iff_gcd_eq_one.2 s4
        exact IsCoprime.mul_left (IsCoprime.of_isCoprime_of_dvd_left (h1.pow_left (m := k)) hk) h1
      have hiff : ∀ x : Int, (n : Int) ∣ a * x ^ 2 + b * x + c ↔
          a1 * n ∣ (2 * a * x + b) ^ 2 - (b * b - 4 * a * c) := by
        intro x
        have e : (2 * a * x + b) ^ 2 - (b * b - 4 * a * c) = a2 * (a1 * (a * x ^ 2 + b * x + c)) := by
          linear_combination -(a * x ^ 2 + b * x + c) * s1
        rw [e]
        constructor
        · intro h; exact Dvd.dvd.mul_left (mul_dvd_mul_left a1 h) a2
        · intro h
          exact Int.dvd_of_mul_dvd_mul_left ha1.ne' (hcop.dvd_of_dvd_mul_left h)
      split at h
      · cases h
      · rename_i e he
        obtain ⟨L, h1, -⟩ := C21_sqrts_mod_n rnd _ (a1 * n).toNat (by omega) _ (hfo _ (by omega)) _ he
        cases h1
      · rename_i ys hys
        obtain ⟨L, h1, h2, h3⟩ := C21_sqrts_mod_n rnd _ (a1 * n).toNat (by omega) _ (hfo _ (by omega)) _ hys
        cases h1
        rw [hmn] at h3
        obtain ⟨X, g1, g2⟩ := linearAll_spec a b (a1 * n) hm2 ys
        rw [g1] at h
        dsimp only at h
        cases h
        refine ⟨_, rfl, pySort_int_lt _ (List.nodup_dedup _), fun x => ?_⟩
        rw [mem_pySort, List.mem_dedup, List.mem_map]
        have hmod : ∀ x y : Int, (n : Int) ∣ x - y → ((n : Int) ∣ a * x ^ 2 + b * x + c ↔ (n : Int) ∣ a * y ^ 2 + b * y + c) := by
          intro x y hxy
          have e : a * x ^ 2 + b * x + c = (a * y ^ 2 + b * y + c) + (x - y) * (a * (x + y) + b) := by ring
          rw [e]
          exact Int.dvd_add_left (hxy.mul_right _)
        constructor
        · rintro ⟨z, hz, rfl⟩
          refine ⟨fmod_nonneg _ hn0, fmod_lt _ hn0, ?_⟩
          obtain ⟨y, hy, -, -, hz2⟩ := (g2 z).1 hz
          obtain ⟨-, -, hy2⟩ := (h3 y).1 hy
          rw [hmod _ z (by rw [fmod_nat]; exact (dvd_sub_comm).1 Int.dvd_self_sub_emod), hiff]
          have e : (2 * a * z + b) ^ 2 - (b * b - 4 * a * c) = (y ^ 2 - (b * b - 4 * a * c)) +
              (2 * a * z - (y - b)) * (2 * a * z + b + y) := by ring
          rw [e]
          exact dvd_add hy2 (hz2.mul_right _)
        · rintro ⟨x0, x1, x2⟩
          refine ⟨x, ?_, by rw [fmod_nat, Int.emod_eq_of_lt x0 x1]⟩
          rw [g2]
          have hd1 : a1 * n ∣ (2 * a * x + b) - (2 * a * x + b) % (a1 * n) := Int.dvd_self_sub_emod
          refine ⟨(2 * a * x + b) % (a1 * n), (h3 _).2 ⟨Int.emod_nonneg _ (by omega),
            Int.emod_lt_of_pos _ (by omega), ?_⟩, x0, by nlinarith, ?_⟩
          · have e : ((2 * a * x + b) % (a1 * n)) ^ 2 - (b * b - 4 * a * c) =
                ((2 * a * x + b) ^ 2 - (b * b - 4 * a * c)) -
                ((2 * a * x + b) - (2 * a * x + b) % (a1 * n)) * ((2 * a * x + b) + (2 * a * x + b) % (a1 * n)) := by
              ring
            rw [e]
            exact Int.dvd_sub ((hiff x).1 x2) (hd1.mul_right _)
          · have e : 2 * a * x - ((2 * a * x + b) % (a1 * n) - b) =
              (2 * a * x + b) - (2 * a * x + b) % (a1 * n) := by ring
            rw [e]
            exact hd1

/-- For `a ≠ 0` the call ends whenever the streams of random choices contain nonresidues. -/
theorem C22_quadratic_congruence_total (rnd : Nat → Nat → Int) (a b c : Int) (ha : a ≠ 0) (n : Nat)
    (hn : 2 ≤ n) (fac : List (Nat × Nat)) (hf : FactorsTo fac n) (factorOf : Nat → List (Nat × Nat))
    (hfo : ∀ m, 2 ≤ m → FactorsTo (factorOf m) m)
    (hrnd : ∀ p, p.Prime → p % 8 = 1 → ∃ i, ¬ IsSquare ((rnd p i : Int) : ZMod p)) :
    ∃ r, quadraticCongruence rnd a b c n fac factorOf = some r := by
  unfold quadraticCongruence
  dsimp only
  split
  · obtain ⟨r, hr⟩ := C21_sqrts_mod_n_total rnd (b * b - 4 * a * c) n fac hf
      (fun pe hpe => hrnd pe.1 (hf.primes.prime pe hpe))
    rw [hr]
    rcases r with e | ys
    · exact ⟨_, rfl⟩
    · dsimp only
      split <;> exact ⟨_, rfl⟩
  · obtain ⟨⟨a1, a2⟩, hs⟩ := splitCoprime_total n (by omega) (4 * a).natAbs 1 (4 * a)
      (mul_ne_zero (by norm_num) ha) (le_refl _)
    rw [hs]
    dsimp only
    obtain ⟨-, s2, -⟩ := splitCoprime_correct n 1 (4 * a) (a1, a2) (by omega) hs
    have ha1 : 0 < a1 := s2 (by norm_num)
    have hm2 : 2 ≤ a1 * n := by
      have : (2 : Int) ≤ n := by omega
      nlinarith
    obtain ⟨r, hr⟩ := C21_sqrts_mod_n_total rnd (b * b - 4 * a * c) _ _ (hfo (a1 * n).toNat (by omega))
      (fun pe hpe => hrnd pe.1 ((hfo (a1 * n).toNat (by omega)).primes.prime pe hpe))
    rw [hr]
    rcases r with e | ys
    · exact ⟨_, rfl⟩
    · dsimp only
      split <;> exact ⟨_, rfl⟩

/-- With leading coefficient 0 the loop that splits `4a` never ends. -/
theorem C22_quadratic_congruence_zero (rnd : Nat → Nat → Int) (b c : Int) (n : Nat) (hn : 2 ≤ n)
    (fac : List (Nat × Nat)) (factorOf : Nat → List (Nat × Nat)) :
    quadraticCongruence rnd 0 b c n fac factorOf = none := by
  unfold quadraticCongruence
  dsimp only
  rw [gcd_eq, if_neg (by simp; omega)]
  cases hs : splitCoprime n 1 (4 * 0) with
  | none => rfl
  | some r =>
    obtain ⟨-, -, -, -, s5⟩ := splitCoprime_correct n 1 (4 * 0) r (by omega) hs
    exact absurd rfl s5

example : FactorsTo [(29, 1)] 29 ∧
    quadraticCongruence (fun _ _ => 3) 11 5 18 29 [(29, 1)] (fun _ => []) = some (.ok [22, 25]) :=
  ⟨⟨⟨by intro pe h; simp at h; subst h; norm_num, by decide⟩, by decide, by decide⟩, by decide +kernel⟩
example : quadraticCongruence (fun _ _ => 3) 1 (-31) (-12) 36 [(2, 2), (3, 2)]
    (fun m => if m = 144 then [(2, 4), (3, 2)] else []) = some (.ok [7, 15, 16, 24]) := by
  have h : splitCoprime 36 1 4 = some (4, 1) := by
    rw [splitCoprime, if_pos (by decide +kernel), splitCoprime]; decide +kernel
  have hs : sqrtsModN (fun _ _ => 3) 1009 [(2, 4), (3, 2)] =
    some (.ok [1, 17, 55, 71, 73, 89, 127, 143]) := by decide +kernel
  unfold quadraticCongruence
  norm_num
  rw [if_neg (by decide +kernel), h]
  dsimp only
  norm_num
  rw [if_pos (by decide), hs]
  decide +kernel

end Rosemary.Props

namespace Rosemary.Props

open Rosemary.Core Rosemary.ArithFunctions Rosemary.Factorization Rosemary.Zn

/-! ## C79 -/

/-- `fibonacci_primitive_roots(p)` for prime `p`: the strictly increasing list of all primitive
roots `x` in `[0, p)` with `x^2 ≡ x + 1 (mod p)`. -/
theorem C79_fibonacci_primitive_roots (rnd : Nat → Int) (p : Nat) (hp : p.Prime)
    (phiFac : List (Nat × Nat)) (hf : FactorsTo phiFac (p - 1))
    (r : Except PyErr (List Int)) (h : fibonacciPrimitiveRoots rnd p phiFac = some r) :
    ∃ L, r = .ok L ∧ L.Pairwise (· < ·) ∧
      ∀ x : Int, x ∈ L ↔ 0 ≤ x ∧ x < p ∧ GeneratesUnits x p ∧ (p : Int) ∣ x ^ 2 - (x + 1) := by
  haveI : Fact p.Prime := ⟨hp⟩
  have hp2 := hp.two_le
  have hdv : ∀ x : Int, (p : Int) ∣ x ^ 2 - (x + 1) ↔ (x : ZMod p) ^ 2 = x + 1 := by
    intro x; rw [← cast_eq_iff_dvd]; push_cast; rfl
  unfold fibonacciPrimitiveRoots at h
  split at h
  · rename_i h2
    cases h
    have hp2 : p = 2 := by rcases hp.eq_two_or_odd with h | h <;> omega
    subst hp2
    refine ⟨_, rfl, List.Pairwise.nil, fun x => ?_⟩
    simp only [List.not_mem_nil, false_iff]
    rintro ⟨h0, h1, -, h3⟩
    have hx : x = 0 ∨ x = 1 := by push_cast at h1; omega
    rcases hx with rfl | rfl <;> norm_num at h3
  · rename_i hodd
    split at h
    · rename_i h5
      subst h5
      cases h
      refine ⟨_, rfl, by simp, fun x => ?_⟩
      simp only [List.mem_singleton]
      constructor
      · rintro rfl
        refine ⟨by norm_num, by norm_num, ?_, by norm_num⟩
        obtain ⟨b, hb, hi⟩ := (C23_is_primitive_root 3 5 [(2, 2)]
          ⟨⟨by decide, by decide⟩, by decide, by decide⟩).2 (by norm_num)
        have : isPrimitiveRoot 3 5 (Nat.totient 5) (primeDivisors [(2, 2)]) = .ok true := by decide +kernel
        rw [this] at hb
        cases hb
        exact hi.1 rfl
      · rintro ⟨h0, h1, -, h3⟩
        have hx : x = 0 ∨ x = 1 ∨ x = 2 ∨ x = 3 ∨ x = 4 := by push_cast at h1; omega
        rcases hx with rfl | rfl | rfl | rfl | rfl <;> first | rfl | norm_num at h3
    · rename_i hp5
      split at h
      · rename_i hlt
        cases h
        have hp3 : p = 3 := by
          have : p ≠ 4 := by rintro rfl; norm_num at hp
          omega
        subst hp3
        refine ⟨_, rfl, List.Pairwise.nil, fun x => ?_⟩
        simp only [List.not_mem_nil, false_iff]
        rintro ⟨h0, h1, -, h3⟩
        have hx : x = 0 ∨ x = 1 ∨ x = 2 := by push_cast at h1; omega
        rcases hx with rfl | rfl | rfl <;> norm_num at h3
      · rename_i hlt
        have hpne : p ≠ 2 := by omega
        have hp6 : 6 ≤ p := by omega
        have h50 : (5 : ZMod p) ≠ 0 := by
          intro hc
          have : ((5 : Nat) : ZMod p) = 0 := by exact_mod_cast hc
          rw [ZMod.natCast_eq_zero_iff] at this
          have := Nat.le_of_dvd (by norm_num) this
          omega
        rw [C12_jacobi_symbol_prime 5 p hpne] at h
        dsimp only at h
        push_cast at h
        rw [if_neg h50] at h
        have h2i := inverseMod_ok (a := 2) (m := p) (by omega) (by
          rw [Int.isCoprime_iff_gcd_eq_one]
          exact (Nat.coprime_primes Nat.prime_two hp).2 hpne.symm)
        obtain ⟨i, hi, i0, i1, i2⟩ := h2i
        have hinv : (2 : ZMod p) * i = 1 := by
          have := (ZMod.intCast_eq_intCast_iff _ _ p).2 i2
          push_cast at this
          exact this
        by_cases hsq : IsSquare (5 : ZMod p)
        swap
        · rw [if_neg hsq, if_pos (by norm_num)] at h
          cases h
          refine ⟨_, rfl, List.Pairwise.nil, fun x => ?_⟩
          simp only [List.not_mem_nil, false_iff]
          rintro ⟨-, -, -, h3⟩
          rw [hdv] at h3
          exact hsq ⟨2 * x - 1, by linear_combination -4 * h3⟩
        · rw [if_pos hsq, if_neg (by simp)] at h
          split at h
          · cases h
          · rename_i e he
            obtain ⟨L, h1, -⟩ := C20_sqrts_mod_p rnd 5 p hp _ he
            cases h1
          · rename_i sq hs
            obtain ⟨L, h1, h2, h3⟩ := C20_sqrts_mod_p rnd 5 p hp _ hs
            cases h1
            rw [hi] at h
            dsimp only at h
            cases h
            have h3' : ∀ y : Int, (p : Int) ∣ y ^ 2 - 5 ↔ (y : ZMod p) ^ 2 = 5 := by
              intro y; rw [← cast_eq_iff_dvd]; push_cast; rfl
            have hprim : ∀ x : Int, isPrimitiveRoot x p (p - 1) (primeDivisors phiFac) = .ok true ↔
                GeneratesUnits x p := by
              intro x
              rw [← Nat.totient_prime hp] at hf ⊢
              obtain ⟨b, hb, hbi⟩ := (C23_is_primitive_root x p phiFac hf).2 hp2
              rw [hb, ← hbi]
              simp
            refine ⟨_, rfl, pySort_int_lt _ ?_, fun x => ?_⟩
            · apply List.Nodup.filter
              refine List.Nodup.map_on ?_ (h2.imp (fun h => ne_of_lt h))
              intro y hy z hz hyz
              obtain ⟨y0, y1, -⟩ := (h3 y).1 hy
              obtain ⟨z0, z1, -⟩ := (h3 z).1 hz
              apply eq_of_cast y0 y1 z0 z1
              have h4 := congrArg (fun w : Int => (w : ZMod p)) hyz
              simp only [cast_fmod] at h4
              push_cast at h4
              linear_combination (2 : ZMod p) * h4 - ((y : ZMod p) - z) * hinv
            · rw [mem_pySort, List.mem_filter, List.mem_map, decide_eq_true_eq, hprim, hdv]
              constructor
              · rintro ⟨⟨y, hy, rfl⟩, hg⟩
                obtain ⟨-, -, y2⟩ := (h3 y).1 hy
                rw [h3'] at y2
                refine ⟨fmod_nonneg _ hp.pos, fmod_lt _ hp.pos, hg, ?_⟩
                rw [cast_fmod]
                push_cast
                have h20 : (2 : ZMod p) ≠ 0 := by
                  intro hc; rw [hc, zero_mul] at hinv; exact zero_ne_one hinv
                have h40 : (4 : ZMod p) ≠ 0 := by
                  have : (4 : ZMod p) = 2 * 2 := by norm_num
                  rw [this]; exact mul_ne_zero h20 h20
                apply mul_left_cancel₀ h40
                linear_combination y2 + ((1 + (y : ZMod p)) ^ 2 * (2 * i + 1) - 2 * (1 + (y : ZMod p))) * hinv
              · rintro ⟨x0, x1, hg, x2⟩
                refine ⟨?_, hg⟩
                obtain ⟨y, y0, y1, hy⟩ := exists_rep hp.pos (2 * x - 1 : ZMod p)
                refine ⟨y, (h3 y).2 ⟨y0, y1, ?_⟩, ?_⟩
                · rw [h3', hy]; linear_combination 4 * x2
                · apply eq_of_cast (fmod_nonneg _ hp.pos) (fmod_lt _ hp.pos) x0 x1
                  rw [cast_fmod]
                  push_cast
                  rw [hy]
                  linear_combination (x : ZMod p) * hinv

/-- C79: the call ends if no search for a nonresidue is made or the random choices contain one. -/
theorem C79_total (rnd : Nat → Int) (p : Nat) (hp : p.Prime) (phiFac : List (Nat × Nat))
    (h : p % 8 = 1 → ∃ i, ¬ IsSquare ((rnd i : Int) : ZMod p)) : ∃ r, fibonacciPrimitiveRoots rnd p phiFac = some r := by
  obtain ⟨r, hr⟩ := C20_sqrts_mod_p_total rnd 5 p hp h
  unfold fibonacciPrimitiveRoots
  rw [hr]
  split
  · exact ⟨_, rfl⟩
  split
  · exact ⟨_, rfl⟩
  split
  · exact ⟨_, rfl⟩
  split
  · exact ⟨_, rfl⟩
  split
  · exact ⟨_, rfl⟩
  cases r with
  | error e => exact ⟨_, rfl⟩
  | ok l =>
    dsimp only
    split
    · exact ⟨_, rfl⟩
    · exact ⟨_, rfl⟩

example : fibonacciPrimitiveRoots (fun _ => 3) 11 [(2, 1), (5, 1)] = some (.ok [8]) ∧
    fibonacciPrimitiveRoots (fun _ => 3) 19 [(2, 1), (3, 2)] = some (.ok [15]) := by decide +kernel

end Rosemary.Props
