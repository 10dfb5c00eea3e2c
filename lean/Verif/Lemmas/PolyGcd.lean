import Verif.Model.PolyGcd
import Verif.Lemmas.Polynomials
import Verif.Props.Core
import Verif.Props.Polynomials
import Mathlib.RingTheory.Polynomial.Content
import Mathlib.Algebra.GCDMonoid.Nat
import Mathlib.Algebra.EuclideanDomain.Int

/-!
# Contents, primitive parts and pseudo remainders
-/

namespace Rosemary.Polys

open Polynomial Rosemary Rosemary.Props

/-- `r` is a greatest common divisor of `f` and `g` among the polynomials with integer
coefficients. -/
def IsPolyGcd (r f g : ℤ[X]) : Prop := r ∣ f ∧ r ∣ g ∧ ∀ w : ℤ[X], w ∣ f → w ∣ g → w ∣ r

theorem dvd_of_dvd_C_mul {P Q : ℤ[X]} (hP : P.IsPrimitive) {c : ℤ} (hc : c ≠ 0) (h : P ∣ C c * Q) :
    P ∣ Q := by
  by_cases hQ : Q = 0
  · rw [hQ]; exact dvd_zero _
  · have h0 : C c * Q ≠ 0 := mul_ne_zero (by simpa using hc) hQ
    have h1 := (hP.dvd_primPart_iff_dvd h0).2 h
    have h2 := h1.trans (associated_primPart_mul h0).dvd
    exact ((isUnit_primPart_C c).dvd_mul_left.1 h2).trans Q.primPart_dvd

theorem C_dvd_C_mul {k a : ℤ} {U : ℤ[X]} (hU : U.IsPrimitive) (h : C k ∣ C a * U) : k ∣ a := by
  have h1 := dvd_content_iff_C_dvd.2 h
  have h2 := h1.trans (associated_content_C_mul a U).dvd
  rwa [hU.content_eq_one, mul_one] at h2

/-- A common divisor of `a U` and `b V` has its content in `gcd(a, b)` and its primitive part in `U`
and `V`. -/
theorem common_divisor {a b : ℤ} {U V w : ℤ[X]} (ha : a ≠ 0) (hb : b ≠ 0) (hU : U.IsPrimitive)
    (hV : V.IsPrimitive) (h1 : w ∣ C a * U) (h2 : w ∣ C b * V) :
    w.content ∣ (Int.gcd a b : ℤ) ∧ w.primPart ∣ U ∧ w.primPart ∣ V := by
  have hc := w.C_content_dvd
  refine ⟨Int.dvd_coe_gcd (C_dvd_C_mul hU (hc.trans h1)) (C_dvd_C_mul hV (hc.trans h2)), ?_, ?_⟩
  · exact dvd_of_dvd_C_mul w.isPrimitive_primPart ha (w.primPart_dvd.trans h1)
  · exact dvd_of_dvd_C_mul w.isPrimitive_primPart hb (w.primPart_dvd.trans h2)

theorem gcd_of_dvd {a b k : ℤ} {U V Q R : ℤ[X]} (ha : a ≠ 0) (hb : b ≠ 0) (hU : U.IsPrimitive)
    (hV : V.IsPrimitive) (hk : k ≠ 0) (h : C k * U = Q * V) (hR : Associated R V) :
    IsPolyGcd (C (Int.gcd a b : ℤ) * R) (C a * U) (C b * V) := by
  have hVU : V ∣ U := dvd_of_dvd_C_mul hV hk ⟨Q, by rw [h]; ring⟩
  refine ⟨mul_dvd_mul (C.map_dvd (Int.gcd_dvd_left ..)) (hR.dvd.trans hVU),
    mul_dvd_mul (C.map_dvd (Int.gcd_dvd_right ..)) hR.dvd, ?_⟩
  intro w h1 h2
  obtain ⟨hc, _, hp⟩ := common_divisor ha hb hU hV h1 h2
  rw [w.eq_C_content_mul_primPart]
  exact mul_dvd_mul (C.map_dvd hc) (hp.trans hR.symm.dvd)

theorem gcd_of_coprime {a b : ℤ} {U V : ℤ[X]} (ha : a ≠ 0) (hb : b ≠ 0) (hU : U.IsPrimitive)
    (hV : V.IsPrimitive) (h : ∀ w : ℤ[X], w ∣ U → w ∣ V → w.natDegree = 0) :
    IsPolyGcd (C (Int.gcd a b : ℤ)) (C a * U) (C b * V) := by
  refine ⟨(C.map_dvd (Int.gcd_dvd_left ..)).mul_right _,
    (C.map_dvd (Int.gcd_dvd_right ..)).mul_right _, ?_⟩
  intro w h1 h2
  obtain ⟨hc, hp, hq⟩ := common_divisor ha hb hU hV h1 h2
  have h0 := h _ hp hq
  obtain ⟨e, he⟩ := natDegree_eq_zero.1 h0
  have hu : IsUnit w.primPart := by
    rw [← he]
    apply IsUnit.map
    apply w.isPrimitive_primPart
    rw [he]
  have := C.map_dvd hc
  conv_lhs => rw [w.eq_C_content_mul_primPart]
  exact hu.mul_right_dvd.2 this

/-! ## Lists -/

theorem mk_of_reduced {l : List Int} (h : Reduced l) : mk l = l := by
  have : l.length ≠ 0 := by
    intro hc; exact h.1 (List.length_eq_zero_iff.1 hc)
  rw [mk, if_neg this, popZeros, dif_neg]
  rintro ⟨h1, h2⟩
  exact h.2 h1 h2

theorem toPoly_eq_zero {l : List Int} (h : ∀ a ∈ l, a = 0) : toPoly l = 0 := by
  apply toPoly_ext
  intro i
  rw [coeff_zero, List.getD_eq_getElem?_getD]
  rcases hi : l[i]? with _ | a
  · rfl
  · exact h a (List.mem_of_getElem? hi)

theorem C_dvd_toPoly {k : ℤ} {l : List Int} : C k ∣ toPoly l ↔ ∀ a ∈ l, k ∣ a := by
  rw [C_dvd_iff_dvd_coeff]
  constructor
  · intro h a ha
    obtain ⟨i, hi⟩ := List.mem_iff_getElem?.1 ha
    have := h i
    rw [coeff_toPoly, List.getD_eq_getElem?_getD, hi] at this
    exact this
  · intro h i
    rw [coeff_toPoly, List.getD_eq_getElem?_getD]
    rcases hi : l[i]? with _ | a
    · exact dvd_zero _
    · exact h a (List.mem_of_getElem? hi)

theorem natDegree_toPoly {l : List Int} (hl : Reduced l) (h0 : toPoly l ≠ 0) :
    (toPoly l).natDegree = l.length - 1 :=
  natDegree_eq_of_degree_eq_some (degree_toPoly hl h0).1

theorem gcdList_spec {f : List Int} (hf : f ≠ []) :
    ∃ c, Core.gcdList f = .ok c ∧ (∀ a ∈ f, c ∣ a) ∧ (∀ k : ℤ, (∀ a ∈ f, k ∣ a) → k ∣ c) ∧
      (2 ≤ f.length → 0 ≤ c) := by
  match f, hf with
  | [a], _ => exact ⟨a, rfl, by simp, fun k hk => hk a (by simp), by simp⟩
  | a :: b :: rest, _ =>
    obtain ⟨g, h1, h2, h3, h4⟩ := C01_gcd_list (a :: b :: rest) (by simp)
    exact ⟨g, h1, h3, h4, fun _ => h2⟩

theorem primitivePart_spec {f : List Int} (hf : Reduced f) (h0 : toPoly f ≠ 0) :
    ∃ c c' P, Core.gcdList f = .ok c ∧ c' = (if f.getD (f.length - 1) 0 < 0 then -c else c) ∧
      primitivePart f = .ok P ∧ c ≠ 0 ∧ c' ≠ 0 ∧
      toPoly f = C c' * toPoly P ∧ Reduced P ∧ (toPoly P).IsPrimitive ∧ P.length = f.length := by
  obtain ⟨c, hc, hd, hg, _⟩ := gcdList_spec hf.1
  have hc0 : c ≠ 0 := by
    rintro rfl
    exact h0 (toPoly_eq_zero (fun a ha => zero_dvd_iff.1 (hd a ha)))
  set c' : ℤ := if f.getD (f.length - 1) 0 < 0 then -c else c with hc'
  have hc'0 : c' ≠ 0 := by
    rw [hc']; split
    · exact neg_ne_zero.2 hc0
    · exact hc0
  have hd' : ∀ a ∈ f, c' ∣ a := by
    intro a ha
    rw [hc']; split
    · exact (neg_dvd).2 (hd a ha)
    · exact hd a ha
  have hg' : ∀ k : ℤ, (∀ a ∈ f, k ∣ a) → k ∣ c' := by
    intro k hk
    rw [hc']; split
    · exact (dvd_neg).2 (hg k hk)
    · exact hg k hk
  have hgetD : ∀ i, c' * (f.map (fun e => Int.fdiv e c')).getD i 0 = f.getD i 0 := by
    intro i
    rw [List.getD_eq_getElem?_getD, List.getD_eq_getElem?_getD, List.getElem?_map]
    rcases hi : f[i]? with _ | a
    · simp
    · simp only [Option.map_some, Option.getD_some]
      exact Int.mul_fdiv_cancel' (hd' a (List.mem_of_getElem? hi))
  have hred : Reduced (f.map (fun e => Int.fdiv e c')) := by
    refine ⟨by simpa using hf.1, ?_⟩
    rw [List.length_map]
    intro hl hz
    apply hf.2 hl
    rw [← hgetD, hz, mul_zero]
  have htp : toPoly f = C c' * toPoly (f.map (fun e => Int.fdiv e c')) := by
    apply toPoly_ext
    intro i
    rw [coeff_C_mul, coeff_toPoly, hgetD]
  refine ⟨c, c', f.map (fun e => Int.fdiv e c'), hc, rfl, ?_, hc0, hc'0, htp, hred, ?_, by simp⟩
  · unfold primitivePart
    rw [hc]
    dsimp only
    rw [show (if f.getD (f.length - 1) 0 < 0 then c * -1 else c) = c' by
      rw [hc']; split <;> ring]
    rw [if_neg hc'0, mk_of_reduced hred]
  · intro r hr
    have h1 : C (c' * r) ∣ toPoly f := by
      rw [htp, C_mul]; exact mul_dvd_mul_left _ hr
    have h2 := hg' _ (C_dvd_toPoly.1 h1)
    have h3 : c' * r ∣ c' * 1 := by rwa [mul_one]
    exact isUnit_of_dvd_one ((mul_dvd_mul_iff_left hc'0).1 h3)

end Rosemary.Polys
