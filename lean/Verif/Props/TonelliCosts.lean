import Verif.Model.TonelliCosts
import Verif.Props.SquareRoots
import Mathlib.NumberTheory.LucasPrimality

/-!
# C183: the numbers built by `sqrts_mod_p`
-/

namespace Rosemary.Props

open Rosemary.Core Rosemary.ArithFunctions Rosemary.Factorization Rosemary.Zn

/-! ### The results are those of `sqrts_mod_p` -/

theorem tonelliExponentC_spec (p : Nat) (A D : Int) (s : Nat) :
    (tonelliExponentC p A D s).1 = tonelliExponent p A D s ∧ (tonelliExponentC p A D s).2.length = s := by
  have key : ∀ (l : List Nat) (m : Nat) (B : List Int),
      (l.foldl (fun (st : Nat × List Int) i => (if pyPow (A * D ^ st.1) (2 ^ (s - 1 - i)) p = (p : Int) - 1 then st.1 + 2 ^ i else st.1,
        st.2 ++ [A * D ^ st.1])) (m, B)).1 =
        l.foldl (fun m i => if pyPow (A * D ^ m) (2 ^ (s - 1 - i)) p = (p : Int) - 1 then m + 2 ^ i else m) m ∧
      (l.foldl (fun (st : Nat × List Int) i => (if pyPow (A * D ^ st.1) (2 ^ (s - 1 - i)) p = (p : Int) - 1 then st.1 + 2 ^ i else st.1,
        st.2 ++ [A * D ^ st.1])) (m, B)).2.length = B.length + l.length := by
    intro l
    induction l with
    | nil => intro m B; exact ⟨rfl, rfl⟩
    | cons i l ih =>
      intro m B
      obtain ⟨h1, h2⟩ := ih (if pyPow (A * D ^ m) (2 ^ (s - 1 - i)) p = (p : Int) - 1 then m + 2 ^ i else m) (B ++ [A * D ^ m])
      refine ⟨h1, ?_⟩
      rw [List.foldl_cons]
      dsimp only
      rw [h2, List.length_append, List.length_singleton, List.length_cons]
      omega
  obtain ⟨h1, h2⟩ := key (List.range s) 0 []
  exact ⟨h1, by rw [tonelliExponentC, h2, List.length_range]; simp⟩

theorem tonelliRootC_fst (a d : Int) (p : Nat) : (tonelliRootC a d p).1 = tonelliRoot a d p := by
  rw [tonelliRootC, tonelliRoot]
  dsimp only
  rw [(tonelliExponentC_spec _ _ _ _).1]

theorem sqrtsModPC_fst (rnd : Nat → Int) (a : Int) (p : Nat) : (sqrtsModPC rnd a p).map Prod.fst = sqrtsModP rnd a p := by
  rw [sqrtsModPC, sqrtsModP]
  dsimp only
  by_cases h1 : p < 2
  · rw [if_pos h1, if_pos h1]; rfl
  rw [if_neg h1, if_neg h1]
  by_cases h2 : p = 2
  · rw [if_pos h2, if_pos h2]; rfl
  rw [if_neg h2, if_neg h2]
  by_cases h3 : a.fmod p = 0
  · rw [if_pos h3, if_pos h3]; rfl
  rw [if_neg h3, if_neg h3]
  cases jacobiSymbol (a.fmod p) p with
  | error e => rfl
  | ok j =>
    dsimp only
    by_cases h4 : j ≠ 1
    · rw [if_pos h4, if_pos h4]; rfl
    rw [if_neg h4, if_neg h4]
    by_cases h5 : p % 8 = 3 ∨ p % 8 = 7
    · rw [if_pos h5, if_pos h5]; rfl
    rw [if_neg h5, if_neg h5]
    by_cases h6 : p % 8 = 5
    · rw [if_pos h6, if_pos h6]; rfl
    rw [if_neg h6, if_neg h6]
    cases findNonresidue rnd p 0 with
    | none => rfl
    | some d =>
      dsimp only
      rw [Option.map_some, tonelliRootC_fst]

/-! ### The number of powers -/

theorem sqrtsModPC_length (rnd : Nat → Int) (a : Int) (p : Nat) (r : Except PyErr (List Int)) (B : List Int)
    (h : sqrtsModPC rnd a p = some (r, B)) : B.length ≤ Nat.log 2 p := by
  rw [sqrtsModPC] at h
  dsimp only at h
  by_cases h1 : p < 2
  · rw [if_pos h1] at h; cases h; exact Nat.zero_le _
  rw [if_neg h1] at h
  by_cases h2 : p = 2
  · rw [if_pos h2] at h; cases h; exact Nat.zero_le _
  rw [if_neg h2] at h
  by_cases h3 : a.fmod p = 0
  · rw [if_pos h3] at h; cases h; exact Nat.zero_le _
  rw [if_neg h3] at h
  split at h
  · cases h; exact Nat.zero_le _
  rename_i j _
  by_cases h4 : j ≠ 1
  · rw [if_pos h4] at h; cases h; exact Nat.zero_le _
  rw [if_neg h4] at h
  by_cases h5 : p % 8 = 3 ∨ p % 8 = 7
  · rw [if_pos h5] at h; cases h; exact Nat.zero_le _
  rw [if_neg h5] at h
  by_cases h6 : p % 8 = 5
  · rw [if_pos h6] at h; cases h; exact Nat.zero_le _
  rw [if_neg h6] at h
  split at h
  · simp at h
  · simp only [Option.some.injEq, Prod.mk.injEq] at h
    rw [← h.2, tonelliRootC]
    dsimp only
    rw [(tonelliExponentC_spec _ _ _ _).2]
    obtain ⟨v1, -⟩ := C13_valuation_partial 2 ((p : Int) - 1) (by norm_num) (by omega)
    generalize valuation 2 ((p : Int) - 1) (by norm_num) = s at *
    have hcast : ((p - 1 : Nat) : Int) = (p : Int) - 1 := by omega
    rw [← hcast] at v1
    have v1' : 2 ^ s ∣ p - 1 := by exact_mod_cast v1
    exact Nat.le_log_of_pow_le (by norm_num) ((Nat.le_of_dvd (by omega) v1').trans (by omega))

/-! ### Roots of roots of -1 -/

theorem tonelli_order_four {p : Nat} [hp : Fact p.Prime] (hp2 : p ≠ 2) (A D : Int) (s : Nat) (hs : 2 ≤ s)
    (hA : (A : ZMod p) ^ 2 = -1) : A * D ^ 2 ^ (s - 2) ∈ (tonelliExponentC p A D s).2 := by
  have hp2' := hp.out.two_le
  haveI : Fact (2 < p) := ⟨by omega⟩
  set f : Nat × List Int → Nat → Nat × List Int := fun st i =>
    (if pyPow (A * D ^ st.1) (2 ^ (s - 1 - i)) p = (p : Int) - 1 then st.1 + 2 ^ i else st.1, st.2 ++ [A * D ^ st.1]) with hf
  have h0 : ∀ j, j ≤ s - 2 → ((List.range j).foldl f (0, [])).1 = 0 := by
    intro j
    induction j with
    | zero => intro _; rfl
    | succ j ih =>
      intro hj
      rw [List.range_succ, List.foldl_append, List.foldl_cons, List.foldl_nil, hf]
      dsimp only
      rw [← hf, ih (by omega), if_neg]
      rw [pyPow_eq_neg_one hp2', pow_zero, mul_one]
      obtain ⟨e, he⟩ : ∃ e, s - 1 - j = e + 2 := ⟨s - 3 - j, by omega⟩
      rw [he, pow_add, mul_comm, show 2 ^ 2 = 2 * 2 from rfl, mul_assoc, pow_mul, pow_mul, hA, neg_one_sq, one_pow]
      exact fun h => ZMod.neg_one_ne_one h.symm
  have h1 : ((List.range (s - 1)).foldl f (0, [])).1 = 2 ^ (s - 2) := by
    rw [show s - 1 = s - 2 + 1 by omega, List.range_succ, List.foldl_append, List.foldl_cons, List.foldl_nil, hf]
    dsimp only
    rw [← hf, h0 _ le_rfl, if_pos, Nat.zero_add]
    rw [pyPow_eq_neg_one hp2', pow_zero, mul_one, show s - 1 - (s - 2) = 1 by omega, pow_one]
    exact hA
  have h2 : tonelliExponentC p A D s = f ((List.range (s - 1)).foldl f (0, [])) (s - 1) := by
    rw [tonelliExponentC, show List.range s = List.range (s - 1) ++ [s - 1] by
      rw [← List.range_succ, show (s - 1).succ = s by omega],
      List.foldl_append]
    rfl
  rw [h2, hf]
  dsimp only
  rw [← hf, h1]
  exact List.mem_append_right _ (List.mem_singleton_self _)

/-- C183 is violated for every prime `p` with `p % 8 = 1`: to find the square roots of a square root of -1, `sqrts_mod_p` builds a
number with at least `2^(s - 2)` bits, where `2^s` is any power of 2 that divides `p - 1`, whatever the random choices are. -/
theorem C183_power_violation (p : Nat) (hp : p.Prime) (h8 : p % 8 = 1) (s : Nat) (hs : 2 ≤ s) (hdvd : 2 ^ s ∣ p - 1) (a : Int)
    (ha : (p : Int) ∣ a ^ 2 + 1) (rnd : Nat → Int) (hr : ∃ i, ¬ IsSquare ((rnd i : Int) : ZMod p)) :
    ∃ L B, sqrtsModP rnd a p = some (.ok L) ∧ sqrtsModPC rnd a p = some (.ok L, B) ∧ ∃ b ∈ B, (2 : Int) ^ 2 ^ (s - 2) ≤ b := by
  haveI : Fact p.Prime := ⟨hp⟩
  have hp2 : p ≠ 2 := by rintro rfl; omega
  have hp2' := hp.two_le
  haveI : Fact (2 < p) := ⟨by omega⟩
  have ha2 : (a : ZMod p) ^ 2 = -1 := by
    have := (ZMod.intCast_zmod_eq_zero_iff_dvd (a ^ 2 + 1) p).2 ha
    push_cast at this
    exact eq_neg_of_add_eq_zero_left this
  have ha0 : (a : ZMod p) ≠ 0 := by
    intro h
    rw [h, zero_pow (by norm_num)] at ha2
    exact neg_ne_zero.2 one_ne_zero ha2.symm
  have hsq : IsSquare (a : ZMod p) := by
    refine (ZMod.euler_criterion p ha0).2 ?_
    rw [show p / 2 = 2 * (2 * (p / 8)) by omega, pow_mul, ha2, pow_mul, neg_one_sq, one_pow]
  obtain ⟨r, hr1⟩ := C20_sqrts_mod_p_total rnd a p hp (fun _ => hr)
  obtain ⟨L, rfl, -⟩ := C20_sqrts_mod_p rnd a p hp r hr1
  have hfst := sqrtsModPC_fst rnd a p
  rw [hr1] at hfst
  obtain ⟨⟨r', B⟩, hB, hr'⟩ := Option.map_eq_some_iff.1 hfst
  dsimp only at hr'
  subst hr'
  refine ⟨L, B, hr1, hB, ?_⟩
  have hac : ((a.fmod p : Int) : ZMod p) = a := cast_fmod a p
  rw [sqrtsModPC, if_neg (by omega), if_neg hp2] at hB
  dsimp only at hB
  rw [if_neg (by
    intro h
    rw [h, Int.cast_zero] at hac
    exact ha0 hac.symm), C12_jacobi_symbol_prime _ p hp2, if_neg (by rw [hac]; exact ha0), if_pos (by rw [hac]; exact hsq)] at hB
  dsimp only at hB
  rw [if_neg (by simp), if_neg (by omega), if_neg (by omega)] at hB
  split at hB
  · simp at hB
  · rename_i d hd
    simp only [Option.some.injEq, Prod.mk.injEq] at hB
    have hdn := (jacobi_neg_one hp2 d).1 (findNonresidue_correct _ _ _ _ hd)
    have hd0 : (d : ZMod p) ≠ 0 := by rintro h; rw [h] at hdn; exact hdn (IsSquare.zero)
    rw [← hB.2, tonelliRootC]
    dsimp only
    generalize a.fmod p = b at *
    obtain ⟨v1, v2⟩ := C13_valuation_partial 2 ((p : Int) - 1) (by norm_num) (by omega)
    generalize valuation 2 ((p : Int) - 1) (by norm_num) = s' at *
    have hcast : ((p - 1 : Nat) : Int) = (p : Int) - 1 := by omega
    rw [← hcast] at v1 v2
    have v1' : 2 ^ s' ∣ p - 1 := by exact_mod_cast v1
    have v2' : ¬ 2 ^ (s' + 1) ∣ p - 1 := by exact_mod_cast v2
    have hss : s ≤ s' := by
      by_contra hc
      exact v2' ((pow_dvd_pow 2 (by omega)).trans hdvd)
    rw [Nat.shiftRight_eq_div_pow]
    obtain ⟨t, ht⟩ := v1'
    rw [ht, Nat.mul_div_cancel_left _ (by positivity)]
    have htodd : t % 2 = 1 := by
      by_contra hc
      apply v2'
      rw [ht, pow_succ]
      exact Nat.mul_dvd_mul_left _ (by omega)
    have hA : ((pyPow b t p : Int) : ZMod p) ^ 2 = -1 := by
      rw [cast_pyPow, hac, ← pow_mul, mul_comm, pow_mul, ha2]
      exact Odd.neg_one_pow (Nat.odd_iff.2 htodd)
    refine ⟨_, tonelli_order_four hp2 _ _ s' (by omega) hA, ?_⟩
    have hA1 : 1 ≤ pyPow b t p := by
      have h1 := pyPow_nonneg b t hp.pos
      rcases h1.eq_or_lt with h | h
      · rw [← h, Int.cast_zero, zero_pow (by norm_num)] at hA
        exact absurd hA.symm (neg_ne_zero.2 one_ne_zero)
      · omega
    have hD1 : 2 ≤ pyPow d t p := by
      have hhalf : p / 2 = t * 2 ^ (s' - 1) := by
        obtain ⟨s'', rfl⟩ : ∃ s'', s' = s'' + 1 := ⟨s' - 1, by omega⟩
        rw [Nat.add_sub_cancel]
        rw [pow_succ] at ht
        have : p - 1 = 2 * (t * 2 ^ s'') := by rw [ht]; ring
        omega
      have hD : ((pyPow d t p : Int) : ZMod p) ^ 2 ^ (s' - 1) = -1 := by
        rw [cast_pyPow, ← pow_mul, ← hhalf]
        rcases ZMod.pow_div_two_eq_neg_one_or_one p hd0 with h | h
        · exact absurd ((ZMod.euler_criterion p hd0).2 h) hdn
        · exact h
      have h1 := pyPow_nonneg d t hp.pos
      by_contra hc
      have h2 : pyPow d t p = 0 ∨ pyPow d t p = 1 := by omega
      rcases h2 with h2 | h2 <;> rw [h2] at hD
      · rw [Int.cast_zero, zero_pow (by positivity)] at hD
        exact absurd hD.symm (neg_ne_zero.2 one_ne_zero)
      · rw [Int.cast_one, one_pow] at hD
        exact ZMod.neg_one_ne_one hD.symm
    calc (2 : Int) ^ 2 ^ (s - 2) ≤ 2 ^ 2 ^ (s' - 2) :=
          pow_le_pow_right₀ (by norm_num) (Nat.pow_le_pow_right (by norm_num) (by omega))
      _ ≤ pyPow d t p ^ 2 ^ (s' - 2) := pow_le_pow_left₀ (by norm_num) hD1 _
      _ ≤ pyPow b t p * pyPow d t p ^ 2 ^ (s' - 2) := le_mul_of_one_le_left (by positivity) hA1

/-- C183: `sqrts_mod_p` computes at most `log p` powers in its loop.  Missing is the documented running time `O(log(p)**4)`, which
is false since the numbers are not reduced: see `C183_power_violation` and `C183_time_violation`. -/
theorem C183_rounds_partial (rnd : Nat → Int) (a : Int) (p : Nat) (r : Except PyErr (List Int)) (h : sqrtsModP rnd a p = some r) :
    ∃ B, sqrtsModPC rnd a p = some (r, B) ∧ B.length ≤ Nat.log 2 p := by
  have hfst := sqrtsModPC_fst rnd a p
  rw [h] at hfst
  obtain ⟨⟨r', B⟩, hB, hr'⟩ := Option.map_eq_some_iff.1 hfst
  dsimp only at hr'
  subst hr'
  exact ⟨B, hB, sqrtsModPC_length rnd a p _ B hB⟩

/-! ### A prime with a large power of 2 -/

/-- `n` squarings modulo `p`. -/
def squarings (p : Nat) : Nat → Nat → Nat
  | 0, x => x
  | n + 1, x => squarings p n (x * x % p)

theorem cast_squarings (p : Nat) : ∀ n x, ((squarings p n x : Nat) : ZMod p) = (x : ZMod p) ^ 2 ^ n := by
  intro n
  induction n with
  | zero => intro x; rw [squarings, pow_zero, pow_one]
  | succ n ih => intro x; rw [squarings, ih, ZMod.natCast_mod, Nat.cast_mul, ← sq, ← pow_mul, pow_succ']

/-- `3 * 2^189 + 1`. -/
def bigProth : Nat := 3 * 2 ^ 189 + 1

theorem bigProth_prime : bigProth.Prime := by
  have h1 : squarings bigProth 189 1000 = 1 := by decide +kernel
  have h2 : squarings bigProth 188 1000 = bigProth - 1 := by decide +kernel
  have h3 : squarings bigProth 189 10 % bigProth ≠ 1 := by decide +kernel
  have hlt : 2 < bigProth := by decide +kernel
  haveI : Fact (2 < bigProth) := ⟨hlt⟩
  have c1 := cast_squarings bigProth 189 1000
  have c2 := cast_squarings bigProth 188 1000
  have c3 := cast_squarings bigProth 189 10
  have e : ((1000 : Nat) : ZMod bigProth) = ((10 : Nat) : ZMod bigProth) ^ 3 := by rw [← Nat.cast_pow]; norm_num
  rw [h1, e, ← pow_mul, Nat.cast_one] at c1
  rw [h2, e, ← pow_mul, Nat.cast_sub (by omega), ZMod.natCast_self, zero_sub, Nat.cast_one] at c2
  refine lucas_primality bigProth ((10 : Nat) : ZMod bigProth) c1.symm (fun q hq hd => ?_)
  have hq' : q ∣ 3 * 2 ^ 189 := hd
  rcases (Nat.Prime.dvd_mul hq).1 hq' with h | h
  · rw [(Nat.prime_dvd_prime_iff_eq hq Nat.prime_three).1 h, show (bigProth - 1) / 3 = 2 ^ 189 by decide +kernel, ← c3]
    intro hc
    apply h3
    have := (ZMod.natCast_eq_natCast_iff' (squarings bigProth 189 10) 1 bigProth).1 (by rw [hc, Nat.cast_one])
    rw [this, Nat.mod_eq_of_lt (by omega)]
  · rw [(Nat.prime_dvd_prime_iff_eq hq Nat.prime_two).1 (hq.dvd_of_dvd_pow h), show (bigProth - 1) / 2 = 3 * 2 ^ 188 by decide +kernel, ← c2]
    exact ZMod.neg_one_ne_one

/-- A square root of -1 modulo this prime. -/
def prothRoot : Int := 190398030824408527887236273396405859279859906619491922582

/-- C183 is violated: for the 191-bit prime `p = 3 * 2^189 + 1` and a certain `a`, whatever the random choices are, `sqrts_mod_p(a, p)`
builds a number with more than `2^150 * log(p)^4` bits; it cannot be stored. -/
theorem C183_time_violation (rnd : Nat → Int) (hr : ∃ i, ¬ IsSquare ((rnd i : Int) : ZMod bigProth)) :
    bigProth.Prime ∧ ∃ L B, sqrtsModP rnd prothRoot bigProth = some (.ok L) ∧ sqrtsModPC rnd prothRoot bigProth = some (.ok L, B) ∧
      ∃ b ∈ B, (2 : Int) ^ (2 ^ 150 * Nat.log 2 bigProth ^ 4) ≤ b := by
  refine ⟨bigProth_prime, ?_⟩
  obtain ⟨L, B, h1, h2, b, hb, h3⟩ := C183_power_violation bigProth bigProth_prime (by decide +kernel) 189 (by norm_num)
    ⟨3, by decide +kernel⟩ prothRoot (by decide +kernel) rnd hr
  refine ⟨L, B, h1, h2, b, hb, le_trans (pow_le_pow_right₀ (by norm_num) ?_) h3⟩
  have hlog : Nat.log 2 bigProth = 190 := Nat.log_eq_of_pow_le_of_lt_pow (by decide +kernel) (by decide +kernel)
  rw [hlog]
  norm_num

/-- The random choice 5 is a nonresidue. -/
example : ¬ IsSquare (((fun _ => 5 : Nat → Int) 0 : Int) : ZMod bigProth) := by
  haveI : Fact bigProth.Prime := ⟨bigProth_prime⟩
  haveI : Fact (2 < bigProth) := ⟨by decide +kernel⟩
  have h2 : squarings bigProth 188 125 = bigProth - 1 := by decide +kernel
  have c2 := cast_squarings bigProth 188 125
  have e : ((125 : Nat) : ZMod bigProth) = ((5 : Nat) : ZMod bigProth) ^ 3 := by rw [← Nat.cast_pow]; norm_num
  rw [h2, e, ← pow_mul, Nat.cast_sub (by decide +kernel), ZMod.natCast_self, zero_sub, Nat.cast_one] at c2
  intro hsq
  have hne : (((fun _ => 5 : Nat → Int) 0 : Int) : ZMod bigProth) ≠ 0 := by
    rw [ne_eq, ZMod.intCast_zmod_eq_zero_iff_dvd]
    decide +kernel
  have := (ZMod.euler_criterion bigProth hne).1 hsq
  rw [show bigProth / 2 = 3 * 2 ^ 188 by decide +kernel] at this
  push_cast at this c2
  rw [← c2] at this
  exact ZMod.neg_one_ne_one this

/-- For `p = 97` and the square root 22 of -1 the number `75 * 28^8` is built. -/
example : sqrtsModPC (fun _ => 5) 22 97 = some (.ok [33, 64], [75, 75, 75, 75, 75 * 28 ^ 8]) := by
  have h : findNonresidue (fun _ => 5) 97 0 = some 5 := by rw [findNonresidue.eq_1]; decide +kernel
  unfold sqrtsModPC; rw [h]; decide +kernel

end Rosemary.Props
