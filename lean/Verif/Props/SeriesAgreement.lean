import Verif.Props.Polynomials
import Mathlib.Algebra.Ring.GeomSum

/-!
# Property C191: the power series functions fit together

A list of `n` coefficients stands for a power series up to `x^(n-1)`.  The laws of inverses and powers hold for the lists
returned by `ps_invert`, `ps_power`, `ps_mult_classical` and `power_jcp`, as equalities of lists.
-/

namespace Rosemary.Props

open Polynomial Rosemary.Polys

theorem getD_of_lt {L : List Int} {i : Nat} (h : i < L.length) : L.getD i 0 = L[i] := by
  rw [List.getD_eq_getElem?_getD, List.getElem?_eq_getElem h]; rfl

theorem close_iff {n : Nat} {P Q : ℤ[X]} : X ^ n ∣ P - Q ↔ ∀ i < n, P.coeff i = Q.coeff i := by
  rw [X_pow_dvd_iff]
  exact forall₂_congr fun i _ => by rw [coeff_sub, sub_eq_zero]

theorem list_of_close {n : Nat} {L L' : List Int} (h : L.length = n) (h' : L'.length = n) (hc : X ^ n ∣ toPoly L - toPoly L') : L = L' := by
  refine List.ext_getElem (by omega) fun i h1 h2 => ?_
  have := close_iff.1 hc i (by omega)
  rw [coeff_toPoly, coeff_toPoly, getD_of_lt h1, getD_of_lt h2] at this
  exact this

theorem close_take (L : List Int) (n : Nat) : X ^ n ∣ toPoly (L.take n) - toPoly L := by
  rw [close_iff]
  intro i hi
  rw [coeff_toPoly, coeff_toPoly, List.getD_eq_getElem?_getD, List.getD_eq_getElem?_getD, List.getElem?_take_of_lt hi]

/-- The constant term is 1 or -1. -/
def UnitTerm (A : List Int) : Prop := A[0]? = some 1 ∨ A[0]? = some (-1)

theorem UnitTerm.pos {A : List Int} (h : UnitTerm A) : 1 ≤ A.length := by
  rcases A with _ | ⟨a, A⟩
  · simp [UnitTerm] at h
  · simp

theorem UnitTerm.coeff {A : List Int} (h : UnitTerm A) : (toPoly A).coeff 0 = 1 ∨ (toPoly A).coeff 0 = -1 := by
  rw [coeff_toPoly, List.getD_eq_getElem?_getD]
  rcases h with h | h <;> simp [h]

theorem unitTerm_of_coeff {A : List Int} (hl : 1 ≤ A.length) (h : (toPoly A).coeff 0 = 1 ∨ (toPoly A).coeff 0 = -1) : UnitTerm A := by
  rw [coeff_toPoly, getD_of_lt (by omega)] at h
  unfold UnitTerm
  rw [List.getElem?_eq_getElem (by omega)]
  rcases h with h | h <;> simp [h]

theorem psInvert_iff {A B : List Int} (h : UnitTerm A) :
    psInvert A = .ok B ↔ B.length = A.length ∧ X ^ A.length ∣ toPoly A * toPoly B - 1 := by
  obtain ⟨C, h1, h2, h3⟩ : ∃ C, psInvert A = .ok C ∧ C.length = A.length ∧ X ^ A.length ∣ toPoly A * toPoly C - 1 := by
    obtain ⟨C, h1, h2, h3⟩ : ∃ C, psInvert A = .ok C ∧ C.length = A.length ∧
        ∀ i, i < A.length → (toPoly A * toPoly C).coeff i = if i = 0 then 1 else 0 := by
      rcases h with h | h
      · exact C48_ps_invert A 1 h (Or.inl rfl)
      · exact C48_ps_invert A (-1) h (Or.inr rfl)
    exact ⟨C, h1, h2, close_iff.2 fun i hi => by rw [h3 i hi, coeff_one]⟩
  rw [h1]
  constructor
  · intro e
    injection e with e
    subst e
    exact ⟨h2, h3⟩
  · rintro ⟨h4, h5⟩
    congr 1
    refine list_of_close h2 h4 ?_
    have : toPoly C - toPoly B = toPoly B * (toPoly A * toPoly C - 1) - toPoly C * (toPoly A * toPoly B - 1) := by ring
    rw [this]
    exact dvd_sub (h3.mul_left _) (h5.mul_left _)

theorem psInvert_unit {A B : List Int} (h : UnitTerm A) (hB : psInvert A = .ok B) : UnitTerm B := by
  obtain ⟨h1, h2⟩ := (psInvert_iff h).1 hB
  have hp := h.pos
  have h0 := close_iff.1 h2 0 (by omega)
  rw [mul_coeff_zero, coeff_one_zero] at h0
  refine unitTerm_of_coeff (by omega) ?_
  rcases h.coeff with hc | hc <;> rw [hc] at h0
  · left; omega
  · right; omega

theorem psPower_iff {A P : List Int} {a0 : Int} (h0 : A[0]? = some a0) (hne : a0 ≠ 0) (k : Nat) :
    psPower A k = .ok P ↔ P.length = A.length ∧ X ^ A.length ∣ toPoly P - toPoly A ^ k := by
  obtain ⟨C, h1, h2, h3⟩ := C47_ps_power A a0 h0 hne k
  have h3' : X ^ A.length ∣ toPoly C - toPoly A ^ k := close_iff.2 fun i hi => by rw [coeff_toPoly, h3 i hi]
  rw [h1]
  constructor
  · intro e
    injection e with e
    subst e
    exact ⟨h2, h3'⟩
  · rintro ⟨h4, h5⟩
    congr 1
    refine list_of_close h2 h4 ?_
    have := dvd_sub h3' h5
    rwa [sub_sub_sub_cancel_right] at this

theorem psPower_head {A P : List Int} {a0 : Int} (h0 : A[0]? = some a0) (hne : a0 ≠ 0) {k : Nat} (h : psPower A k = .ok P) :
    P[0]? = some (a0 ^ k) := by
  obtain ⟨h1, h2⟩ := (psPower_iff h0 hne k).1 h
  have hl : 0 < A.length := by
    by_contra hc
    rw [List.getElem?_eq_none (by omega)] at h0
    cases h0
  have := close_iff.1 h2 0 hl
  rw [coeff_toPoly, coeff_zero_eq_eval_zero, eval_pow, ← coeff_zero_eq_eval_zero, coeff_toPoly, getD_of_lt (by omega), getD_of_lt hl] at this
  rw [List.getElem?_eq_getElem hl] at h0
  rw [List.getElem?_eq_getElem (by omega), this, Option.some.inj h0]

theorem psMult_length {A B : List Int} (hA : 1 ≤ A.length) (hB : 1 ≤ B.length) : (psMultClassical A B).length = A.length + B.length - 1 := by
  rw [psMultClassical, length_mulRows, List.length_replicate]

/-- C191: inverting twice gives the series back. -/
theorem C191_invert_invert (A : List Int) (h : UnitTerm A) : ∃ B, psInvert A = .ok B ∧ psInvert B = .ok A := by
  obtain ⟨B, hB⟩ : ∃ B, psInvert A = .ok B := by
    rcases h with h | h
    · exact (C48_ps_invert A 1 h (Or.inl rfl)).imp fun _ h => h.1
    · exact (C48_ps_invert A (-1) h (Or.inr rfl)).imp fun _ h => h.1
  obtain ⟨h1, h2⟩ := (psInvert_iff h).1 hB
  exact ⟨B, hB, (psInvert_iff (psInvert_unit h hB)).2 ⟨h1.symm, by rw [h1, mul_comm]; exact h2⟩⟩

/-- C191: the inverse of a product is the product of the inverses, all cut to the common number of coefficients. -/
theorem C191_invert_product (A B : List Int) (hA : UnitTerm A) (hB : UnitTerm B) (hl : A.length = B.length) :
    ∃ A' B', psInvert A = .ok A' ∧ psInvert B = .ok B' ∧
      psInvert ((psMultClassical A B).take A.length) = .ok ((psMultClassical A' B').take A.length) := by
  obtain ⟨A', hA', -⟩ := C191_invert_invert A hA
  obtain ⟨B', hB', -⟩ := C191_invert_invert B hB
  refine ⟨A', B', hA', hB', ?_⟩
  obtain ⟨a1, a2⟩ := (psInvert_iff hA).1 hA'
  obtain ⟨b1, b2⟩ := (psInvert_iff hB).1 hB'
  rw [← hl] at b1 b2
  have hp := hA.pos
  have l1 : ((psMultClassical A B).take A.length).length = A.length := by
    rw [List.length_take, psMult_length hp (by omega)]; omega
  have l2 : ((psMultClassical A' B').take A.length).length = A.length := by
    rw [List.length_take, psMult_length (by omega) (by omega)]; omega
  have c1 := close_take (psMultClassical A B) A.length
  have c2 := close_take (psMultClassical A' B') A.length
  rw [toPoly_psMultClassical] at c1 c2
  refine (psInvert_iff (unitTerm_of_coeff (by omega) ?_)).2 ⟨by omega, ?_⟩
  · rw [close_iff.1 c1 0 (by omega), mul_coeff_zero]
    rcases hA.coeff with h | h <;> rcases hB.coeff with h' | h' <;> rw [h, h'] <;> norm_num
  · rw [l1]
    generalize toPoly ((psMultClassical A B).take A.length) = U at c1
    generalize toPoly ((psMultClassical A' B').take A.length) = V at c2
    have : U * V - 1 = (U - toPoly A * toPoly B) * V + toPoly A * toPoly B * (V - toPoly A' * toPoly B') +
        (toPoly A * toPoly A' - 1) * (toPoly B * toPoly B') + (toPoly B * toPoly B' - 1) := by ring
    rw [this]
    exact dvd_add (dvd_add (dvd_add (c1.mul_right _) (c2.mul_left _)) (a2.mul_right _)) b2

/-- C191: exponents add when powers are multiplied, and multiply when powers are taken of powers. -/
theorem C191_power_laws (A : List Int) (a0 : Int) (h0 : A[0]? = some a0) (hne : a0 ≠ 0) (j k : Nat) :
    ∃ P Q R, psPower A j = .ok P ∧ psPower A k = .ok Q ∧ psPower P k = .ok R ∧
      psPower A (j + k) = .ok ((psMultClassical P Q).take A.length) ∧ psPower A (j * k) = .ok R := by
  obtain ⟨P, hP, p1, -⟩ := C47_ps_power A a0 h0 hne j
  obtain ⟨Q, hQ, q1, -⟩ := C47_ps_power A a0 h0 hne k
  have hP0 := psPower_head h0 hne hP
  obtain ⟨R, hR, r1, -⟩ := C47_ps_power P _ hP0 (pow_ne_zero j hne) k
  have p2 := ((psPower_iff h0 hne j).1 hP).2
  have q2 := ((psPower_iff h0 hne k).1 hQ).2
  have r2 := ((psPower_iff hP0 (pow_ne_zero j hne) k).1 hR).2
  have hl : 1 ≤ A.length := by
    by_contra hc
    rw [List.getElem?_eq_none (by omega)] at h0
    cases h0
  refine ⟨P, Q, R, hP, hQ, hR, (psPower_iff h0 hne _).2 ⟨?_, ?_⟩, (psPower_iff h0 hne _).2 ⟨by omega, ?_⟩⟩
  · rw [List.length_take, psMult_length (by omega) (by omega)]; omega
  · have c := close_take (psMultClassical P Q) A.length
    rw [toPoly_psMultClassical] at c
    have : ∀ U : ℤ[X], U - toPoly A ^ (j + k) = (U - toPoly P * toPoly Q) + (toPoly P - toPoly A ^ j) * toPoly Q +
        toPoly A ^ j * (toPoly Q - toPoly A ^ k) := fun U => by ring
    rw [this]
    exact dvd_add (dvd_add c (p2.mul_right _)) (q2.mul_left _)
  · rw [p1] at r2
    have := dvd_add r2 (p2.trans (sub_dvd_pow_sub_pow (toPoly P) (toPoly A ^ j) k))
    rwa [sub_add_sub_cancel, ← pow_mul] at this

/-- C191: the inverse of a power is the power of the inverse. -/
theorem C191_invert_power (A : List Int) (h : UnitTerm A) (k : Nat) :
    ∃ B P Q, psInvert A = .ok B ∧ psPower A k = .ok P ∧ psPower B k = .ok Q ∧ psInvert P = .ok Q := by
  have unit : ∀ {L : List Int}, UnitTerm L → ∃ a, L[0]? = some a ∧ a ≠ 0 ∧ (a = 1 ∨ a = -1) := fun hL => by
    rcases hL with hL | hL
    · exact ⟨1, hL, by norm_num, Or.inl rfl⟩
    · exact ⟨-1, hL, by norm_num, Or.inr rfl⟩
  obtain ⟨B, hB, -⟩ := C191_invert_invert A h
  obtain ⟨a, a1, a2, a3⟩ := unit h
  obtain ⟨b, b1, b2, -⟩ := unit (psInvert_unit h hB)
  obtain ⟨P, hP, -⟩ := C47_ps_power A a a1 a2 k
  obtain ⟨Q, hQ, -⟩ := C47_ps_power B b b1 b2 k
  obtain ⟨i1, i2⟩ := (psInvert_iff h).1 hB
  obtain ⟨p1, p2⟩ := (psPower_iff a1 a2 k).1 hP
  obtain ⟨q1, q2⟩ := (psPower_iff b1 b2 k).1 hQ
  have hPu : UnitTerm P := by
    have := psPower_head a1 a2 hP
    rcases a3 with rfl | rfl
    · left; rw [this, one_pow]
    · rcases neg_one_pow_eq_or ℤ k with e | e
      · left; rw [this, e]
      · right; rw [this, e]
  refine ⟨B, P, Q, hB, hP, hQ, (psInvert_iff hPu).2 ⟨by omega, ?_⟩⟩
  rw [i1] at q2
  rw [p1]
  have e : toPoly P * toPoly Q - 1 = (toPoly P - toPoly A ^ k) * toPoly Q + toPoly A ^ k * (toPoly Q - toPoly B ^ k) +
      ((toPoly A * toPoly B) ^ k - 1 ^ k) := by rw [mul_pow, one_pow]; ring
  rw [e]
  exact dvd_add (dvd_add (p2.mul_right _) (q2.mul_left _)) (i2.trans (sub_dvd_pow_sub_pow _ _ k))

/-- C191: fewer coefficients given, the same coefficients back, as far as they go. -/
theorem C191_precision (A : List Int) (m : Nat) (hm : 1 ≤ m) (hA : m ≤ A.length) :
    (UnitTerm A → ∃ B, psInvert A = .ok B ∧ psInvert (A.take m) = .ok (B.take m)) ∧
    ∀ a0 k, A[0]? = some a0 → a0 ≠ 0 → ∃ P, psPower A k = .ok P ∧ psPower (A.take m) k = .ok (P.take m) := by
  have hd : (X : ℤ[X]) ^ m ∣ X ^ A.length := pow_dvd_pow X hA
  have hl : (A.take m).length = m := by rw [List.length_take]; omega
  have h0 : (A.take m)[0]? = A[0]? := List.getElem?_take_of_lt (by omega)
  have cA := close_take A m
  constructor
  · intro h
    obtain ⟨B, hB, -⟩ := C191_invert_invert A h
    obtain ⟨h1, h2⟩ := (psInvert_iff h).1 hB
    refine ⟨B, hB, (psInvert_iff (by unfold UnitTerm; rw [h0]; exact h)).2 ⟨by rw [hl, List.length_take]; omega, ?_⟩⟩
    rw [hl]
    have cB := close_take B m
    have e : toPoly (A.take m) * toPoly (B.take m) - 1 = (toPoly (A.take m) - toPoly A) * toPoly (B.take m) +
        toPoly A * (toPoly (B.take m) - toPoly B) + (toPoly A * toPoly B - 1) := by ring
    rw [e]
    exact dvd_add (dvd_add (cA.mul_right _) (cB.mul_left _)) (hd.trans h2)
  · intro a0 k ha hne
    obtain ⟨P, hP, -⟩ := C47_ps_power A a0 ha hne k
    obtain ⟨h1, h2⟩ := (psPower_iff ha hne k).1 hP
    refine ⟨P, hP, (psPower_iff (by rw [h0]; exact ha) hne k).2 ⟨by rw [hl, List.length_take]; omega, ?_⟩⟩
    rw [hl]
    have cP := close_take P m
    have e : toPoly (P.take m) - toPoly (A.take m) ^ k = (toPoly (P.take m) - toPoly P) + (toPoly P - toPoly A ^ k) -
        (toPoly (A.take m) ^ k - toPoly A ^ k) := by ring
    rw [e]
    exact dvd_sub (dvd_add cP (hd.trans h2)) (cA.trans (sub_dvd_pow_sub_pow _ _ k))

/-- C191: `ps_power` returns the first coefficients of the polynomial returned by `power_jcp` (filled up with zeros). -/
theorem C191_jcp (A : List Int) (a0 : Int) (h0 : A[0]? = some a0) (hne : a0 ≠ 0) (k : Nat) :
    ∃ P Q, psPower A k = .ok P ∧ powerJcp A k = .ok Q ∧ P.length = A.length ∧ ∀ i < A.length, P.getD i 0 = Q.getD i 0 := by
  obtain ⟨P, hP, h1, h2⟩ := C47_ps_power A a0 h0 hne k
  obtain ⟨Q, hQ, h3⟩ := C47_power_jcp A ⟨a0, List.mem_of_getElem? h0, hne⟩ k
  exact ⟨P, Q, hP, hQ, h1, fun i hi => by rw [h2 i hi, ← h3, coeff_toPoly]⟩

/-- Fibonacci numbers and back; the square of the inverse. -/
example : psInvert [1, -1, -1, 0, 0] = .ok [1, 1, 2, 3, 5] ∧ psInvert [1, 1, 2, 3, 5] = .ok [1, -1, -1, 0, 0] ∧
    psPower [1, 1, 2, 3, 5] 2 = .ok [1, 2, 5, 10, 20] ∧ psPower [1, -1, -1, 0, 0] 2 = .ok [1, -2, -1, 2, 1] ∧
    psInvert [1, -2, -1, 2, 1] = .ok [1, 2, 5, 10, 20] ∧ psPower [2, 1] 3 = .ok [8, 12] ∧ powerJcp [2, 1] 3 = .ok [8, 12, 6, 1] := by
  decide +kernel

end Rosemary.Props
