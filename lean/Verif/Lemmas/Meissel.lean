import Verif.Lemmas.PhiCount
import Verif.Lemmas.SqrtSlack

/-!
# The nested functions of `meissel`
-/

namespace Rosemary.PrimeCounting

open Rosemary.Sieves Rosemary.Spec Finset

theorem phiN_one (x : Nat) : phiN x 1 = ((x + 1) / 2 : Nat) := by
  rw [phiN_step x 0, phiN_zero, phiN_zero, P_zero]
  omega

theorem phiLoop_spec {R : Nat} (rec : Nat → Nat → Memo → Except PyErr (Int × Memo)) (G : Nat → Nat → Int)
    (x k i : Nat) (hik : i + k ≤ Nat.primeCounting R)
    (hrec : ∀ j, i ≤ j → j < i + k → P j ≤ x → ∀ memo, MemoOk G memo →
      ∃ m', rec (x / P j) j memo = .ok (G (x / P j) j, m') ∧ MemoOk G m')
    (v : Int) (memo : Memo) (hm : MemoOk G memo) :
    ∃ m', phiLoop rec (primesUpTo R) x (List.range' i k) v memo =
      .ok (v - ∑ j ∈ (Ico i (i + k)).filter (fun j => P j ≤ x), G (x / P j) j, m') ∧ MemoOk G m' := by
  induction k generalizing i v memo with
  | zero => exact ⟨memo, by simp [phiLoop], hm⟩
  | succ k ih =>
    rw [List.range'_succ]
    unfold phiLoop
    rw [primesUpTo_get (by omega)]
    dsimp only
    by_cases hp : P i > x
    · rw [if_pos hp]
      refine ⟨memo, ?_, hm⟩
      rw [Finset.filter_eq_empty_iff.2, Finset.sum_empty, sub_zero]
      intro j hj
      have := P_le.2 (mem_Ico.1 hj).1
      omega
    · rw [if_neg hp]
      obtain ⟨m1, h1, hm1⟩ := hrec i (le_refl _) (by omega) (by omega) memo hm
      rw [h1]
      dsimp only
      obtain ⟨m2, h2, hm2⟩ := ih (i + 1) (by omega) (fun j h1 h2 => hrec j (by omega) (by omega))
        (v - G (x / P i) i) m1 hm1
      refine ⟨m2, ?_, hm2⟩
      rw [h2]
      have e : (Ico i (i + (k + 1))).filter (fun j => P j ≤ x) =
          insert i ((Ico (i + 1) (i + 1 + k)).filter (fun j => P j ≤ x)) := by
        ext j
        simp only [mem_filter, mem_Ico, mem_insert]
        constructor
        · rintro ⟨h3, h4⟩
          by_cases hj : j = i
          · exact Or.inl hj
          · exact Or.inr ⟨by omega, h4⟩
        · rintro (rfl | ⟨h3, h4⟩)
          · exact ⟨by omega, by omega⟩
          · exact ⟨by omega, h4⟩
      rw [e, Finset.sum_insert (by simp)]
      congr 2
      ring

theorem phi2Loop_spec {R : Nat} {pc : List Nat} (hpc : ∀ k ≤ R, pc[k]? = some (Nat.primeCounting k))
    (n k i : Nat) (hik : i + k ≤ Nat.primeCounting R) (hn : ∀ j, i ≤ j → j < i + k → n / P j ≤ R) (t : Int) :
    phi2Loop (primesUpTo R) pc n (List.range' i k) t =
      .ok (t + ∑ j ∈ Ico i (i + k), (Nat.primeCounting (n / P j) : Int)) := by
  induction k generalizing i t with
  | zero => simp [phi2Loop]
  | succ k ih =>
    rw [List.range'_succ]
    unfold phi2Loop
    rw [primesUpTo_get (by omega)]
    dsimp only
    rw [hpc _ (hn i (le_refl _) (by omega))]
    dsimp only
    rw [ih (i + 1) (by omega) (fun j h1 h2 => hn j (by omega) (by omega)),
      Finset.sum_eq_sum_Ico_succ_bot (by omega : i < i + (k + 1))]
    rw [show i + 1 + k = i + (k + 1) by omega, add_assoc]

theorem meisselPhi2_spec {R : Nat} {pc : List Nat} (hpc : ∀ k ≤ R, pc[k]? = some (Nat.primeCounting k))
    (n a b : Nat) (hab : a ≤ b) (hb : b ≤ Nat.primeCounting R) (hn : ∀ j, a ≤ j → j < b → n / P j ≤ R) :
    meisselPhi2 (primesUpTo R) pc n a b =
      .ok (∑ j ∈ Ico a b, ((Nat.primeCounting (n / P j) : Int) - j)) := by
  unfold meisselPhi2 pyRange
  rw [phi2Loop_spec hpc n (b - a) a (by omega) (fun j h1 h2 => hn j h1 (by omega)),
    show a + (b - a) = b by omega, Finset.sum_sub_distrib, sum_Ico_id a b hab]
  congr 1
  have e : ((a : Int) - b) * (b + a - 1) = -(((b : Int) - a) * (b + a - 1)) := by ring
  rw [e, ← two_mul_sum_Ico a b hab, Int.fdiv_eq_ediv_of_nonneg _ (by norm_num),
    Int.fdiv_eq_ediv_of_nonneg _ (by norm_num)]
  omega

theorem pi_mono {x y : Nat} (h : x ≤ y) : Nat.primeCounting x ≤ Nat.primeCounting y :=
  Nat.monotone_primeCounting h

/-- `f` is the floor of the square root up to `N`. -/
def FloorSqrt (f : Nat → Nat) (N : Nat) : Prop := ∀ x ≤ N, f x * f x ≤ x ∧ x < (f x + 1) * (f x + 1)

/-- `f` is the floor of the cube root up to `N`. -/
def FloorCbrt (f : Nat → Nat) (N : Nat) : Prop :=
  ∀ x ≤ N, f x * f x * f x ≤ x ∧ x < (f x + 1) * (f x + 1) * (f x + 1)

theorem sq_le_of_lt_pi {i s x : Nat} (h : i < Nat.primeCounting s) (hs : s * s ≤ x) : P i * P i ≤ x :=
  le_trans (Nat.mul_le_mul (lt_pi_iff.1 h) (lt_pi_iff.1 h)) hs

theorem meisselPhi_spec {fsqrt fcbrt : Nat → Nat} {N root A : Nat} {pc : List Nat}
    (hpc : ∀ k ≤ root, pc[k]? = some (Nat.primeCounting k)) (hs : FloorSqrt fsqrt N) (hc : FloorCbrt fcbrt N)
    (hN : ∀ r, r * r ≤ N → r ≤ root) (hA : A ≤ Nat.primeCounting root)
    (hA2 : ∀ i, i < A → P i * P i ≤ root)
    (fuel a x : Nat) (hf : a < fuel) (ha1 : 1 ≤ a) (haA : a ≤ A) (hax : a ≤ Nat.primeCounting x) (hx : x ≤ N)
    (memo : Memo) (hm : MemoOk phiN memo) :
    ∃ m', meisselPhi fsqrt fcbrt (primesUpTo root) pc root fuel x a memo = .ok (phiN x a, m') ∧
      MemoOk phiN m' := by
  induction fuel generalizing a x memo with
  | zero => omega
  | succ fuel ih =>
    have hx1 : 1 ≤ x := by
      by_contra h0
      have : x = 0 := by omega
      subst this
      rw [Nat.primeCounting_zero] at hax
      omega
    unfold meisselPhi
    split
    · rename_i v hv
      exact ⟨memo, by rw [hm _ _ _ hv], hm⟩
    · obtain ⟨s1, s2⟩ := hs x hx
      obtain ⟨c1, c2⟩ := hc x hx
      have hsr : fsqrt x ≤ root := hN _ (by omega)
      have hcs : fcbrt x ≤ fsqrt x := by
        by_contra h0
        have h1 : (fsqrt x + 1) * (fsqrt x + 1) ≤ fcbrt x * fcbrt x :=
          Nat.mul_le_mul (by omega) (by omega)
        have h2 : fcbrt x * fcbrt x * 1 ≤ fcbrt x * fcbrt x * fcbrt x :=
          Nat.mul_le_mul_left _ (by omega)
        omega
      rw [hpc _ hsr, hpc _ (by omega)]
      dsimp only
      by_cases h7 : a ≤ 7
      · rw [if_pos h7, phiSmall_eq x a ha1 h7]
        exact ⟨_, rfl, hm.cons x a⟩
      · rw [if_neg h7]
        by_cases hb1 : (Nat.primeCounting (fsqrt x) > a ∧ a ≥ Nat.primeCounting (fcbrt x)) ∧ x ≤ root
        · rw [if_pos hb1, hpc x hb1.2]
          dsimp only
          rw [meisselPhi2_spec hpc x a _ (by omega) (pi_mono hsr)
            (fun j _ _ => le_trans (Nat.div_le_self _ _) hb1.2)]
          dsimp only
          have hle : fsqrt x ≤ x := le_trans (Nat.le_mul_self _) s1
          have := phiN_meissel (x := x) (a := a) (b := Nat.primeCounting (fsqrt x)) hx1 (by omega)
            (by
              have := pi_le_iff.1 hb1.1.2
              exact lt_of_lt_of_le c2 (Nat.mul_le_mul (Nat.mul_le_mul this this) this))
            (by
              have := pi_le_iff.1 (le_refl (Nat.primeCounting (fsqrt x)))
              exact lt_of_lt_of_le s2 (Nat.mul_le_mul this this))
            (pi_mono hle)
            (fun i _ hi => le_trans (Nat.mul_le_mul_left _ (Nat.sub_le _ _)) (sq_le_of_lt_pi hi s1))
          rw [← this]
          exact ⟨_, rfl, hm.cons x a⟩
        · rw [if_neg hb1]
          by_cases hb2 : a ≥ Nat.primeCounting (fsqrt x) ∧ x ≤ root
          · rw [if_pos hb2, hpc x hb2.2]
            dsimp only
            have := phiN_legendre (x := x) (a := a) hx1 (by
              have := pi_le_iff.1 hb2.1
              exact lt_of_lt_of_le s2 (Nat.mul_le_mul this this)) hax
            rw [← this]
            exact ⟨_, rfl, hm.cons x a⟩
          · rw [if_neg hb2]
            have hsq : ∀ i, i < a → P i * P i ≤ x := by
              intro i hi
              by_cases hxr : x ≤ root
              · exact sq_le_of_lt_pi (s := fsqrt x) (by
                  have : ¬ a ≥ Nat.primeCounting (fsqrt x) := fun h => hb2 ⟨h, hxr⟩
                  omega) s1
              · have := hA2 i (by omega)
                omega
            obtain ⟨m1, h1, hm1⟩ := phiLoop_spec (R := root)
              (meisselPhi fsqrt fcbrt (primesUpTo root) pc root fuel) phiN x (a - 1) 1 (by omega)
              (by
                intro j hj1 hj2 hjx memo hm
                refine ih j (x / P j) (by omega) hj1 (by omega) ?_ (le_trans (Nat.div_le_self _ _) hx) memo hm
                have h3 : P j ≤ x / P j := by
                  rw [Nat.le_div_iff_mul_le (P_prime j).pos]; exact hsq j (by omega)
                exact le_of_lt (lt_pi_iff.2 h3))
              ((x + 1) / 2 : Nat) memo hm
            rw [show pyRange 1 a = List.range' 1 (a - 1) from rfl, h1]
            dsimp only
            have e : (Ico 1 (1 + (a - 1))).filter (fun j => P j ≤ x) = Ico 1 a := by
              rw [show 1 + (a - 1) = a by omega]
              refine Finset.filter_true_of_mem ?_
              intro j hj
              exact le_trans (Nat.le_mul_self _) (hsq j (mem_Ico.1 hj).2)
            have h4 := phiN_telescope x 1 a ha1
            rw [e, ← phiN_one, h4, add_sub_cancel_right]
            exact ⟨_, rfl, hm1.cons x a⟩

end Rosemary.PrimeCounting
