import Verif.Lemmas.PolyGcd

/-!
# C117, C118: content, primitive part and gcd of integer polynomials

`Reduced` (Lemmas/Polynomials.lean) are the coefficient lists the constructor produces, `toPoly` is
Mathlib's polynomial with these coefficients, and `IsPolyGcd r f g` (Lemmas/PolyGcd.lean) says that
`r` divides `f` and `g` and is divisible by every common divisor, in `ℤ[X]`.
-/

namespace Rosemary.Props

open Polynomial Rosemary Rosemary.Polys

/-! ## C117 -/

/-- C117: `content` is the nonnegative greatest common divisor of the coefficients, for all
polynomials but negative constants. -/
theorem C117_content_partial (f : List Int) (hf : Reduced f) (h : 2 ≤ f.length ∨ 0 ≤ f.getD 0 0) :
    ∃ c, content f = .ok c ∧ IsGcdOf c f := by
  obtain ⟨c, h1, h2, h3, h4⟩ := gcdList_spec hf.1
  refine ⟨c, h1, ?_, h2, h3⟩
  rcases h with h | h
  · exact h4 h
  · match f, hf.1, h, h1, h4 with
    | [a], _, h, h1, _ =>
      rw [(C01_gcd_list_short a).2.1] at h1
      injection h1 with h1
      subst h1
      simpa using h
    | a :: b :: rest, _, _, _, h4 => exact h4 (by simp)

/-- C117: for a nonzero polynomial that is not a negative constant, `primitive_part` has positive
leading coefficient and coprime coefficients, the same degree, and multiplied by the content gives
the polynomial up to sign. -/
theorem C117_primitive_part_partial (f : List Int) (hf : Reduced f) (h0 : toPoly f ≠ 0)
    (h : 2 ≤ f.length ∨ 0 ≤ f.getD 0 0) :
    ∃ c P, content f = .ok c ∧ IsGcdOf c f ∧ primitivePart f = .ok P ∧ Reduced P ∧
      P.length = f.length ∧ 0 < P.getD (P.length - 1) 0 ∧ IsGcdOf 1 P ∧
      (toPoly f = C c * toPoly P ∨ toPoly f = -(C c * toPoly P)) := by
  obtain ⟨c, hc, hg⟩ := C117_content_partial f hf h
  obtain ⟨c1, c', P, h1, h2, h3, h4, h5, h6, h7, h8, h9⟩ := primitivePart_spec hf h0
  have hcc : c1 = c := by
    have : content f = .ok c1 := h1
    rw [hc] at this
    injection this with this
    exact this.symm
  subst hcc
  have hlead : f.getD (f.length - 1) 0 = c' * P.getD (P.length - 1) 0 := by
    rw [← coeff_toPoly, ← coeff_toPoly, h6, coeff_C_mul, h9]
  have hf0 := (degree_toPoly hf h0).2
  have hcp : 0 < c1 := lt_of_le_of_ne hg.1 (Ne.symm h4)
  refine ⟨c1, P, hc, hg, h3, h7, h9, ?_, ⟨by decide, fun a _ => one_dvd a, ?_⟩, ?_⟩
  · rw [hlead] at h2 hf0
    split at h2
    · rename_i hn
      rw [h2] at hn
      have : (-c1) * P.getD (P.length - 1) 0 = -(c1 * P.getD (P.length - 1) 0) := by ring
      rw [this, neg_lt_zero] at hn
      exact (pos_iff_pos_of_mul_pos hn).1 hcp
    · rename_i hn
      rw [h2] at hn hf0
      have : 0 < c1 * P.getD (P.length - 1) 0 := lt_of_le_of_ne (not_lt.1 hn) (Ne.symm hf0)
      exact (pos_iff_pos_of_mul_pos this).1 hcp
  · intro k hk
    exact (h8 k (C_dvd_toPoly.2 hk)).dvd
  · rw [h6, h2]
    split
    · right; rw [C_neg]; ring
    · left; rfl

example : Reduced [-12, 18, 0, -30] ∧ content [-12, 18, 0, -30] = .ok 6 ∧
    primitivePart [-12, 18, 0, -30] = .ok [2, -3, 0, 5] := by
  refine ⟨⟨by decide, by decide⟩, by decide +kernel, ?_⟩
  decide +kernel

/-- C117 is false for the other polynomials: the content of a negative constant is negative, its
primitive part is `-1`; the zero polynomial has no primitive part, the call raises. -/
theorem C117_constant_violation (c : Int) (h : c < 0) :
    content [c] = .ok c ∧ primitivePart [c] = .ok [-1] ∧
    primitivePart [0] = .error .zeroDivisionError := by
  refine ⟨rfl, ?_, rfl⟩
  have hlt : [c].getD ([c].length - 1) 0 < 0 := h
  unfold primitivePart
  rw [(C01_gcd_list_short c).2.1]
  dsimp only
  rw [if_pos hlt, if_neg (by omega)]
  have : Int.fdiv c (c * -1) = -1 := by
    rw [show c = -1 * (c * -1) by ring, show -1 * (c * -1) * -1 = c * -1 by ring,
      Int.mul_fdiv_cancel _ (by omega)]
  rw [List.map_cons, List.map_nil, this, mk_of_reduced ⟨by simp, by simp⟩]

/-- C117: `!=` compares polynomials, also with a number. -/
theorem C117_ne (f g : List Int) (hf : Reduced f) (hg : Reduced g) (c : Int) :
    (Polys.ne f g = true ↔ toPoly f ≠ toPoly g) ∧ (neScalar f c = true ↔ toPoly f ≠ C c) := by
  have hc : Reduced (mkScalar c) := ⟨by simp [mkScalar], by simp [mkScalar]⟩
  have htc : toPoly (mkScalar c) = C c := by simp [mkScalar, toPoly]
  constructor
  · unfold Polys.ne
    rw [Bool.not_eq_true', beq_eq_false_iff_ne]
    exact ⟨fun h he => h (hf.inj hg he), fun h he => h (by rw [he])⟩
  · unfold neScalar
    rw [Bool.not_eq_true', beq_eq_false_iff_ne]
    exact ⟨fun h he => h (hc.inj hf (by rw [htc, he])), fun h he => h (by rw [← he, htc])⟩

/-! ## C118 -/

private theorem reduced_prem {u v : List Int} (hu : Reduced u) : Reduced (pseudoQuoRem u v).2 := by
  unfold pseudoQuoRem
  dsimp only
  split
  · exact hu
  · exact reduced_mk _

private theorem toPoly_zero_iff {l : List Int} (h : Reduced l) : l = mkScalar 0 ↔ toPoly l = 0 := by
  have hz : toPoly (mkScalar 0) = 0 := by simp [mkScalar, toPoly]
  exact ⟨fun he => by rw [he, hz],
    fun he => h.inj ⟨by simp [mkScalar], by simp [mkScalar]⟩ (by rw [he, hz])⟩

private theorem start {f g : List Int} (ovf : Int → Bool) (hf : Reduced f) (hg : Reduced g)
    (hf0 : toPoly f ≠ 0) (hg0 : toPoly g ≠ 0) (hl : g.length ≤ f.length) :
    ∃ a b U V, a ≠ 0 ∧ b ≠ 0 ∧ toPoly f = C a * toPoly U ∧ toPoly g = C b * toPoly V ∧
      Reduced U ∧ Reduced V ∧ (toPoly U).IsPrimitive ∧ (toPoly V).IsPrimitive ∧
      U.length = f.length ∧ V.length = g.length ∧
      polyGcd ovf f g = gcdRounds ovf (Int.gcd a b : ℤ) (f.length - g.length) true U V 1 (some 1) := by
  obtain ⟨c1, a, U, h1, h2, h3, h4, h5, h6, h7, h8, h9⟩ := primitivePart_spec hf hf0
  obtain ⟨c2, b, V, k1, k2, k3, k4, k5, k6, k7, k8, k9⟩ := primitivePart_spec hg hg0
  refine ⟨a, b, U, V, h5, k5, h6, k6, h7, k7, h8, k8, h9, k9, ?_⟩
  have e1 : a.natAbs = c1.natAbs := by rw [h2]; split <;> simp
  have e2 : b.natAbs = c2.natAbs := by rw [k2]; split <;> simp
  unfold polyGcd Polys.content
  rw [h1, k1, h3, k3]
  dsimp only
  unfold gcdFrom
  dsimp only
  rw [if_neg (by omega), Core.gcd_eq, h9, k9, Int.gcd, Int.gcd, e1, e2]

/-- The first round. -/
private theorem round_one {ovf : Int → Bool} {U V : List Int} {a b : Int} {dd : Nat}
    (ha : a ≠ 0) (hb : b ≠ 0) (hU : Reduced U) (hV : Reduced V) (hpU : (toPoly U).IsPrimitive)
    (hpV : (toPoly V).IsPrimitive)
    (hov : ovf (V.getD (V.length - 1) 0) = false) :
    let r := (pseudoQuoRem U V).2
    (toPoly r = 0 → ∃ R, gcdRounds ovf (Int.gcd a b : ℤ) dd true U V 1 (some 1) = .value R ∧
      IsPolyGcd (toPoly R) (C a * toPoly U) (C b * toPoly V)) ∧
    (toPoly r ≠ 0 → r.length = 1 → ∃ R,
      gcdRounds ovf (Int.gcd a b : ℤ) dd true U V 1 (some 1) = .value R ∧
      toPoly R = C (Int.gcd a b : ℤ)) ∧
    (2 ≤ r.length → ∃ g h, gcdRounds ovf (Int.gcd a b : ℤ) dd true U V 1 (some 1) =
      gcdRounds ovf (Int.gcd a b : ℤ) dd false V r g h) := by
  intro r
  have hr : Reduced r := reduced_prem hU
  have hV0 : toPoly V ≠ 0 := hpV.ne_zero
  obtain ⟨hq, hdeg⟩ := C49_pseudo_quo_rem U V hU hV hV0
  have hlead := (degree_toPoly hV hV0).2
  refine ⟨?_, ?_, ?_⟩
  · intro h0
    obtain ⟨c, c', P, h1, h2, h3, h4, h5, h6, h7, h8, h9⟩ := primitivePart_spec hV hV0
    refine ⟨mulScalar P (Int.gcd a b : ℤ), ?_, ?_⟩
    · rw [gcdRounds]
      rw [if_pos ((toPoly_zero_iff hr).2 h0), if_pos rfl, h3]
    · have hq' : C (V.getD (V.length - 1) 0 ^ (U.length + 1 - V.length)) * toPoly U =
          toPoly (pseudoQuoRem U V).1 * toPoly V := by
        rw [hq, show toPoly (pseudoQuoRem U V).2 = 0 from h0, add_zero]
      rw [mulScalar, toPoly_mk, toPoly_map_mul]
      refine gcd_of_dvd ha hb hpU hpV (pow_ne_zero _ hlead) hq' ?_
      have hu : IsUnit c' := hpV c' ⟨toPoly P, h6⟩
      rw [h6]
      exact (associated_unit_mul_left _ _ (hu.map C)).symm
  · intro h0 h1
    refine ⟨mk [(Int.gcd a b : ℤ)], ?_, ?_⟩
    · rw [gcdRounds]
      rw [if_neg (fun hc => h0 ((toPoly_zero_iff hr).1 hc)), dif_pos (by
        show r.length - 1 = 0; omega)]
    · rw [toPoly_mk]; simp [toPoly]
  · intro h2
    have hm : mk (r.map (fun e => Int.fdiv e (1 * 1 ^ dd))) = r := by
      rw [one_pow, mul_one, show r.map (fun e => Int.fdiv e 1) = r by
        conv_rhs => rw [← List.map_id r]
        apply List.map_congr_left
        intro x _
        simp, mk_of_reduced hr]
    have hne : r ≠ mkScalar 0 := by
      intro hc
      rw [hc] at h2
      simp [mkScalar] at h2
    rw [gcdRounds]
    rw [if_neg hne, dif_neg (by show ¬ (r.length - 1 = 0); omega)]
    dsimp only
    rw [if_neg (by simp)]
    change ∃ g h, (if dd > 1 then _ else _) = _
    rw [show mk ((pseudoQuoRem U V).2.map (fun e => Int.fdiv e (1 * 1 ^ dd))) = r from hm]
    by_cases hd1 : dd > 1
    · rw [if_pos hd1, if_neg (by simp)]
      exact ⟨_, _, rfl⟩
    · rw [if_neg hd1]
      by_cases hd : dd = 1
      · rw [if_pos hd, if_neg hlead, hov, if_neg (by simp)]
        exact ⟨_, _, rfl⟩
      · rw [if_neg hd]
        exact ⟨_, _, rfl⟩

/-- The last round of a run that went through the first: `v` is now a plain `Polynomial`. -/
private theorem round_last {ovf : Int → Bool} {u v : List Int} {d : Int} {dd : Nat} {g : Int}
    {h : Option Int} (hu : Reduced u) :
    let r := (pseudoQuoRem u v).2
    (toPoly r = 0 → gcdRounds ovf d dd false u v g h = .raises .attributeError) ∧
    (toPoly r ≠ 0 → r.length = 1 → ∃ R, gcdRounds ovf d dd false u v g h = .value R ∧
      toPoly R = C d) := by
  intro r
  have hr : Reduced r := reduced_prem hu
  constructor
  · intro h0
    rw [gcdRounds.eq_def, if_pos ((toPoly_zero_iff hr).2 h0), if_neg (by simp)]
  · intro h0 h1
    refine ⟨mk [d], ?_, by rw [toPoly_mk]; simp [toPoly]⟩
    rw [gcdRounds.eq_def]
    rw [if_neg (fun hc => h0 ((toPoly_zero_iff hr).1 hc)), dif_pos (by
      show r.length - 1 = 0; omega)]

private theorem dvd_prem {u v : List Int} (hu : Reduced u) (hv : Reduced v) (h0 : toPoly v ≠ 0)
    {w : ℤ[X]} (h1 : w ∣ toPoly u) (h2 : w ∣ toPoly v) : w ∣ toPoly (pseudoQuoRem u v).2 := by
  have := (C49_pseudo_quo_rem u v hu hv h0).1
  rw [← sub_eq_iff_eq_add'] at this
  rw [← this]
  exact dvd_sub (h1.mul_left _) (h2.mul_left _)

private theorem prem_length {u v : List Int} (hu : Reduced u) :
    (pseudoQuoRem u v).2.length < v.length ∨ (pseudoQuoRem u v).2.length = 1 := by
  have := (reduced_prem (v := v) hu).1
  have h1 : (pseudoQuoRem u v).2.length ≠ 0 := fun h => this (List.length_eq_zero_iff.1 h)
  by_cases h : 2 ≤ (pseudoQuoRem u v).2.length
  · exact Or.inl (length_pseudoQuoRem u v h)
  · right; omega

private theorem no_overflow {ovf : Int → Bool} {g V : List Int} {b : Int} (hb : b ≠ 0)
    (hg : toPoly g = C b * toPoly V) (hl : V.length = g.length)
    (hov : ∀ x : Int, |x| ≤ |g.getD (g.length - 1) 0| → ovf x = false) :
    ovf (V.getD (V.length - 1) 0) = false := by
  apply hov
  rw [← coeff_toPoly, ← coeff_toPoly, hg, coeff_C_mul, hl, abs_mul]
  have : 1 ≤ |b| := Int.one_le_abs hb
  nlinarith [abs_nonneg ((toPoly V).coeff (g.length - 1))]

/-- C118, first part: `f.gcd(g)` for `deg g ≤ deg f` is a greatest common divisor of `f` and `g` when
`g` divides a multiple `k f` of `f`. -/
theorem C118_gcd_divides_partial (ovf : Int → Bool) (f g : List Int) (hf : Reduced f)
    (hg : Reduced g) (hf0 : toPoly f ≠ 0) (hg0 : toPoly g ≠ 0) (hl : g.length ≤ f.length)
    (hov : ∀ x : Int, |x| ≤ |g.getD (g.length - 1) 0| → ovf x = false)
    (k : Int) (hk : k ≠ 0) (hd : toPoly g ∣ C k * toPoly f) :
    ∃ R, polyGcd ovf f g = .value R ∧ IsPolyGcd (toPoly R) (toPoly f) (toPoly g) := by
  obtain ⟨a, b, U, V, ha, hb, hfU, hgV, hU, hV, hpU, hpV, hlU, hlV, he⟩ :=
    start ovf hf hg hf0 hg0 hl
  rw [he, hfU, hgV]
  refine (round_one ha hb hU hV hpU hpV (no_overflow hb hgV hlV hov)).1 ?_
  have hVU : toPoly V ∣ toPoly U := by
    apply dvd_of_dvd_C_mul hpV (c := k * a) (mul_ne_zero hk ha)
    rw [C_mul, mul_assoc, ← hfU]
    exact (Dvd.intro_left _ hgV.symm).trans hd
  have h1 := dvd_prem hU hV hpV.ne_zero hVU dvd_rfl
  by_contra hne
  exact absurd (C49_pseudo_quo_rem U V hU hV hpV.ne_zero).2 (not_lt.2 (degree_le_of_dvd h1 hne))

example : Reduced [-6, 0, 6] ∧ Reduced [4, 4] ∧
    polyGcd (fun _ => false) [-6, 0, 6] [4, 4] = .value [2, 2] := by
  refine ⟨⟨by decide, by decide⟩, ⟨by decide, by decide⟩, by decide +kernel⟩

private theorem const_of_dvd {l : List Int} (hl : Reduced l) (h0 : toPoly l ≠ 0) (h1 : l.length = 1)
    {w : ℤ[X]} (hw : w ∣ toPoly l) : w.natDegree = 0 := by
  have := natDegree_le_of_dvd hw h0
  rw [natDegree_toPoly hl h0, h1] at this
  omega

private theorem coprime_parts {F G U V : ℤ[X]} {a b : ℤ} (hF : F = C a * U) (hG : G = C b * V)
    (hco : ∀ w : ℤ[X], w ∣ F → w ∣ G → w.natDegree = 0) :
    ∀ w : ℤ[X], w ∣ U → w ∣ V → w.natDegree = 0 := by
  intro w h1 h2
  exact hco w (by rw [hF]; exact h1.mul_left _) (by rw [hG]; exact h2.mul_left _)

/-- C118, second part: for `g` of degree at most 2, `f.gcd(g)` is a greatest common divisor when `f`
and `g` have no common divisor of positive degree. -/
theorem C118_gcd_coprime_partial (ovf : Int → Bool) (f g : List Int) (hf : Reduced f)
    (hg : Reduced g) (hf0 : toPoly f ≠ 0) (hg0 : toPoly g ≠ 0) (hl : g.length ≤ f.length)
    (hov : ∀ x : Int, |x| ≤ |g.getD (g.length - 1) 0| → ovf x = false) (h3 : g.length ≤ 3)
    (hco : ∀ w : ℤ[X], w ∣ toPoly f → w ∣ toPoly g → w.natDegree = 0) :
    ∃ R, polyGcd ovf f g = .value R ∧ IsPolyGcd (toPoly R) (toPoly f) (toPoly g) := by
  obtain ⟨a, b, U, V, ha, hb, hfU, hgV, hU, hV, hpU, hpV, hlU, hlV, he⟩ :=
    start ovf hf hg hf0 hg0 hl
  have hco' := coprime_parts hfU hgV hco
  obtain ⟨r1, r2, r3⟩ := round_one (dd := f.length - g.length) ha hb hU hV hpU hpV
    (no_overflow hb hgV hlV hov)
  have hr := reduced_prem (v := V) hU
  rw [he, hfU, hgV]
  by_cases h0 : toPoly (pseudoQuoRem U V).2 = 0
  · exact r1 h0
  rcases prem_length (v := V) hU with hlt | h1
  · by_cases h1 : (pseudoQuoRem U V).2.length = 1
    · obtain ⟨R, e1, e2⟩ := r2 h0 h1
      exact ⟨R, e1, by rw [e2]; exact gcd_of_coprime ha hb hpU hpV hco'⟩
    · have hpos : (pseudoQuoRem U V).2.length ≠ 0 := fun h => hr.1 (List.length_eq_zero_iff.1 h)
      obtain ⟨g', h', e⟩ := r3 (by omega)
      rw [e]
      obtain ⟨s1, s2⟩ := round_last (ovf := ovf) (u := V) (v := (pseudoQuoRem U V).2)
        (d := (Int.gcd a b : ℤ)) (dd := f.length - g.length) (g := g') (h := h') hV
      have hne : toPoly (pseudoQuoRem V (pseudoQuoRem U V).2).2 ≠ 0 := by
        intro hz
        -- the primitive part of the remainder would be a common divisor
        set r := (pseudoQuoRem U V).2 with hrdef
        have q1 := C49_pseudo_quo_rem V r hV hr h0
        rw [hz, add_zero] at q1
        have q2 := (C49_pseudo_quo_rem U V hU hV hpV.ne_zero).1
        have hlr := (degree_toPoly hr h0).2
        have hlv := (degree_toPoly hV hpV.ne_zero).2
        have p1 : (toPoly r).primPart ∣ toPoly V :=
          dvd_of_dvd_C_mul (toPoly r).isPrimitive_primPart (pow_ne_zero _ hlr)
            (by rw [q1.1]; exact (toPoly r).primPart_dvd.mul_left _)
        have p2 : (toPoly r).primPart ∣ toPoly U :=
          dvd_of_dvd_C_mul (toPoly r).isPrimitive_primPart (pow_ne_zero _ hlv)
            (by rw [q2]; exact dvd_add (p1.mul_left _) (toPoly r).primPart_dvd)
        have := hco' _ p2 p1
        rw [natDegree_primPart, natDegree_toPoly hr h0] at this
        omega
      obtain ⟨R, e1, e2⟩ := s2 hne (by
        rcases prem_length (u := V) (v := (pseudoQuoRem U V).2) hV with h | h
        · have := (reduced_prem (v := (pseudoQuoRem U V).2) hV).1
          have h5 : (pseudoQuoRem V (pseudoQuoRem U V).2).2.length ≠ 0 :=
            fun h => this (List.length_eq_zero_iff.1 h)
          omega
        · exact h)
      exact ⟨R, e1, by rw [e2]; exact gcd_of_coprime ha hb hpU hpV hco'⟩
  · obtain ⟨R, e1, e2⟩ := r2 h0 h1
    exact ⟨R, e1, by rw [e2]; exact gcd_of_coprime ha hb hpU hpV hco'⟩

example : polyGcd (fun _ => false) [4, 0, 0, 8] [-6, 6, 12] = .value [2] ∧
    polyGcd (fun _ => false) [2, 3, 1] [12, -7, 1] = .value [1] := by decide +kernel

/-- C118 is false in the remaining case: for `g` of degree at most 2, if `f` and `g` have a common
divisor of positive degree and `g` does not divide a multiple of `f`, the call raises
`AttributeError`. -/
theorem C118_gcd_violation (ovf : Int → Bool) (f g : List Int) (hf : Reduced f)
    (hg : Reduced g) (hf0 : toPoly f ≠ 0) (hg0 : toPoly g ≠ 0) (hl : g.length ≤ f.length)
    (hov : ∀ x : Int, |x| ≤ |g.getD (g.length - 1) 0| → ovf x = false) (h3 : g.length ≤ 3)
    (w : ℤ[X]) (hwf : w ∣ toPoly f) (hwg : w ∣ toPoly g) (hw : 0 < w.natDegree)
    (hnd : ∀ k : ℤ, k ≠ 0 → ¬ toPoly g ∣ C k * toPoly f) :
    polyGcd ovf f g = .raises .attributeError := by
  obtain ⟨a, b, U, V, ha, hb, hfU, hgV, hU, hV, hpU, hpV, hlU, hlV, he⟩ :=
    start ovf hf hg hf0 hg0 hl
  obtain ⟨r1, r2, r3⟩ := round_one (dd := f.length - g.length) ha hb hU hV hpU hpV
    (no_overflow hb hgV hlV hov)
  have hr := reduced_prem (v := V) hU
  set r := (pseudoQuoRem U V).2 with hrdef
  have hw0 : w ≠ 0 := by rintro rfl; simp at hw
  obtain ⟨-, p1, p2⟩ := common_divisor ha hb hpU hpV (hfU ▸ hwf) (hgV ▸ hwg)
  have hpd : 0 < w.primPart.natDegree := by rwa [natDegree_primPart]
  have q2 := (C49_pseudo_quo_rem U V hU hV hpV.ne_zero).1
  have hlv := (degree_toPoly hV hpV.ne_zero).2
  have h0 : toPoly r ≠ 0 := by
    intro hz
    rw [← hrdef, hz, add_zero] at q2
    refine hnd (b * V.getD (V.length - 1) 0 ^ (U.length + 1 - V.length))
      (mul_ne_zero hb (pow_ne_zero _ hlv)) ?_
    rw [hfU, hgV, C_mul]
    refine ⟨C a * toPoly (pseudoQuoRem U V).1, ?_⟩
    linear_combination C b * C a * q2
  have d1 : w.primPart ∣ toPoly r := dvd_prem hU hV hpV.ne_zero p1 p2
  have hrl : 2 ≤ r.length := by
    by_contra hc
    have : r.length ≠ 0 := fun h => hr.1 (List.length_eq_zero_iff.1 h)
    have := const_of_dvd hr h0 (by omega) d1
    omega
  have hlt := length_pseudoQuoRem U V hrl
  obtain ⟨g', h', e⟩ := r3 hrl
  rw [he, e]
  refine (round_last hV).1 ?_
  by_contra hne
  have hr2 := reduced_prem (v := r) hV
  have d2 := dvd_prem hV hr h0 p2 d1
  have hone : (pseudoQuoRem V r).2.length = 1 := by
    rcases prem_length (u := V) (v := r) hV with h | h
    · have h5 : (pseudoQuoRem V r).2.length ≠ 0 :=
        fun h => hr2.1 (List.length_eq_zero_iff.1 h)
      have : r.length < V.length := hlt
      omega
    · exact h
  have := const_of_dvd hr2 hne hone d2
  omega

/-- The gcd of `(x - 1)(x - 2)` and `(x - 1)(x - 3)`. -/
example : polyGcd (fun _ => false) [2, -3, 1] [3, -4, 1] = .raises .attributeError := by decide +kernel

private theorem gcdRounds_ovf (ovf ovf' : Int → Bool) (d : Int) (dd : Nat) (zz : Bool) (u v : List Int) (g : Int)
    (h : Option Int) (hd : 1 < dd) : gcdRounds ovf d dd zz u v g h = gcdRounds ovf' d dd zz u v g h := by
  induction v using (measure List.length).wf.induction generalizing zz u g h with
  | h v ih =>
    rw [gcdRounds.eq_def, gcdRounds.eq_def ovf']
    dsimp only
    split
    · rfl
    · split
      · rfl
      · rename_i hr
        cases h with
        | none => rfl
        | some h =>
          dsimp only
          split
          · rfl
          · split
            · rfl
            · apply ih
              have h0 : ¬ (pseudoQuoRem u v).2.length - 1 = 0 := hr
              have h1 := length_pseudoQuoRem u v (by omega)
              have h2 := length_mk_le (((pseudoQuoRem u v).2).map (fun e => Int.fdiv e (g * h ^ dd)))
              rw [List.length_map] at h2
              exact Nat.lt_of_le_of_lt h2 (by omega)

private theorem polyGcd_ovf (ovf : Int → Bool) (f g u v : List Int) (hu : primitivePart f = .ok u)
    (hv : primitivePart g = .ok v) (hd : v.length + 1 < u.length) :
    polyGcd ovf f g = polyGcd (fun _ => false) f g := by
  unfold polyGcd
  cases content f with
  | error e => rfl
  | ok cf =>
    cases content g with
    | error e => rfl
    | ok cg =>
      rw [hu, hv]
      dsimp only
      unfold gcdFrom
      dsimp only
      rw [if_neg (by omega), if_neg (by omega)]
      exact gcdRounds_ovf _ _ _ _ _ _ _ _ _ (by omega)

/-- C118 is false for a second operand of degree 3: for `f = (x - 1) x^4` and `g = (x - 1)(3 x^2 + x - 2)`
the call returns 1.  (Line 401 divides by a power of the leading coefficient that is too high, because
`dd` is not updated.) -/
theorem C118_gcd_wrong_value (ovf : Int → Bool) :
    polyGcd ovf [0, 0, 0, 0, -1, 1] [2, -3, -2, 3] = .value [1] ∧
    toPoly [0, 0, 0, 0, -1, 1] = (X - 1) * X ^ 4 ∧ toPoly [2, -3, -2, 3] = (X - 1) * (3 * X ^ 2 + X - 2) ∧
    ¬ IsPolyGcd (toPoly [1]) (toPoly [0, 0, 0, 0, -1, 1]) (toPoly [2, -3, -2, 3]) := by
  have e1 : toPoly [0, 0, 0, 0, -1, 1] = (X - 1) * X ^ 4 := by
    simp only [toPoly, C_0, C_1, C_neg]; ring
  have e2 : toPoly [2, -3, -2, 3] = (X - 1) * (3 * X ^ 2 + X - 2) := by
    simp only [toPoly, C_0, C_neg, show (C (2 : ℤ)) = 2 from rfl, show (C (3 : ℤ)) = 3 from rfl]; ring
  refine ⟨?_, e1, e2, ?_⟩
  · rw [polyGcd_ovf ovf _ _ [0, 0, 0, 0, -1, 1] [2, -3, -2, 3] (by decide +kernel) (by decide +kernel) (by decide)]
    decide +kernel
  · rintro ⟨-, -, h⟩
    rw [e1, e2] at h
    have := h (X - 1) (dvd_mul_right _ _) (dvd_mul_right _ _)
    have h1 : toPoly [1] = (1 : ℤ[X]) := by simp [toPoly]
    rw [h1] at this
    have h2 := Polynomial.natDegree_eq_zero_of_isUnit (isUnit_of_dvd_one this)
    rw [show (X - 1 : ℤ[X]) = X - C 1 by simp, natDegree_X_sub_C] at h2
    omega

/-- C118 is false for coprime operands as well: for `f = x^5` and `g = 3 x^3 + x^2 - 1` the call raises
`AttributeError`. -/
theorem C118_gcd_coprime_violation (ovf : Int → Bool) :
    polyGcd ovf [0, 0, 0, 0, 0, 1] [-1, 0, 1, 3] = .raises .attributeError ∧
    IsPolyGcd 1 (toPoly [0, 0, 0, 0, 0, 1]) (toPoly [-1, 0, 1, 3]) := by
  constructor
  · rw [polyGcd_ovf ovf _ _ [0, 0, 0, 0, 0, 1] [-1, 0, 1, 3] (by decide +kernel) (by decide +kernel) (by decide)]
    decide +kernel
  · refine ⟨one_dvd _, one_dvd _, ?_⟩
    intro w h1 h2
    have e1 : toPoly [0, 0, 0, 0, 0, 1] = X ^ 5 := by simp only [toPoly, C_0, C_1]; ring
    rw [e1, dvd_prime_pow prime_X] at h1
    obtain ⟨k, -, hk⟩ := h1
    cases k with
    | zero => rw [pow_zero] at hk; exact hk.dvd
    | succ k =>
      have h3 : (X : ℤ[X]) ∣ toPoly [-1, 0, 1, 3] :=
        (dvd_pow_self X (Nat.succ_ne_zero k)).trans (hk.symm.dvd.trans h2)
      rw [X_dvd_iff, coeff_toPoly] at h3
      simp at h3

/-- C118: the order of the operands does not matter when `self` has the smaller degree, and the gcd
with the zero polynomial raises `ZeroDivisionError`. -/
theorem C118_gcd_swap (ovf : Int → Bool) (f g : List Int) (hf : Reduced f) (hg : Reduced g)
    (hf0 : toPoly f ≠ 0) (hg0 : toPoly g ≠ 0) :
    (f.length < g.length → polyGcd ovf f g = polyGcd ovf g f) ∧
    polyGcd ovf f [0] = .raises .zeroDivisionError ∧
    polyGcd ovf [0] g = .raises .zeroDivisionError := by
  obtain ⟨c1, a, U, h1, h2, h3, h4, h5, h6, h7, h8, h9⟩ := primitivePart_spec hf hf0
  obtain ⟨c2, b, V, k1, k2, k3, k4, k5, k6, k7, k8, k9⟩ := primitivePart_spec hg hg0
  have z : primitivePart [0] = .error .zeroDivisionError := rfl
  have z' : content [0] = .ok 0 := rfl
  have hcf : content f = .ok c1 := h1
  have hcg : content g = .ok c2 := k1
  refine ⟨?_, ?_, ?_⟩
  · intro hlt
    unfold polyGcd
    rw [hcf, hcg, h3, k3]
    dsimp only
    unfold gcdFrom
    dsimp only
    rw [if_pos (by omega), if_neg (by omega), hcf, hcg, h3, k3]
  · unfold polyGcd
    rw [hcf, z', h3, z]
  · unfold polyGcd
    rw [z', hcg, z]

end Rosemary.Props
