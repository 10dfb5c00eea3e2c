import Verif.Model.ContinuedFractions
import Mathlib.Dynamics.PeriodicPts.Lemmas
import Mathlib.Data.Set.Finite.Lattice
import Mathlib.Data.Int.Interval
import Mathlib.Data.Set.Finite.Basic
import Mathlib.Data.Finite.Prod
import Mathlib.Tactic.Linarith
import Mathlib.Tactic.LinearCombination

/-!
# The period of the continued fraction of a square root

The states of the loop are the pairs `(P, Q)` of the complete quotients `(P + √d)/Q`.
-/

namespace Rosemary.ContinuedFractions

/-- One step of the expansion. -/
def step (d r : ℤ) (s : ℤ × ℤ) : ℤ × ℤ :=
  let P' := (s.1 + r) / s.2 * s.2 - s.1
  (P', (d - P' * P') / s.2)

/-- The reduced states. -/
structure Reduced (d r : ℤ) (s : ℤ × ℤ) : Prop where
  pos : 0 < s.1
  le : s.1 ≤ r
  lt : r - s.1 < s.2
  le' : s.2 ≤ r + s.1
  dvd : s.2 ∣ d - s.1 * s.1

variable {d r : ℤ}

theorem Reduced.posQ {s : ℤ × ℤ} (h : Reduced d r s) : 0 < s.2 := by have := h.le; have := h.lt; omega

/-- The numbers of one step, for a positive `Q`. -/
theorem step_facts {P Q : ℤ} (hQ : 0 < Q) (hdvd : Q ∣ d - P * P) :
    (step d r (P, Q)).1 ≤ r ∧ r - (step d r (P, Q)).1 < Q ∧
    Q * (step d r (P, Q)).2 = d - (step d r (P, Q)).1 * (step d r (P, Q)).1 ∧
    P + (step d r (P, Q)).1 = (P + r) / Q * Q := by
  have h1 := Int.emod_nonneg (P + r) (ne_of_gt hQ)
  have h2 := Int.emod_lt_of_pos (P + r) hQ
  have h3 := Int.mul_ediv_add_emod (P + r) Q
  rw [mul_comm] at h3
  have hd : Q ∣ d - ((P + r) / Q * Q - P) * ((P + r) / Q * Q - P) := by
    have : d - ((P + r) / Q * Q - P) * ((P + r) / Q * Q - P) =
        (d - P * P) - Q * ((P + r) / Q * ((P + r) / Q * Q - 2 * P)) := by ring
    rw [this]
    exact Int.dvd_sub hdvd (dvd_mul_right _ _)
  refine ⟨?_, ?_, ?_, ?_⟩
  · show (P + r) / Q * Q - P ≤ r
    linarith
  · show r - ((P + r) / Q * Q - P) < Q
    linarith
  · show Q * ((d - ((P + r) / Q * Q - P) * ((P + r) / Q * Q - P)) / Q) = _
    rw [Int.mul_ediv_cancel' hd]
    rfl
  · show P + ((P + r) / Q * Q - P) = _
    ring

theorem step_reduced (h1 : r * r < d) (h2 : d < (r + 1) * (r + 1)) {s : ℤ × ℤ} (h : Reduced d r s) :
    Reduced d r (step d r s) := by
  obtain ⟨P, Q⟩ := s
  obtain ⟨ha, hb, hc, hd, he⟩ := h
  dsimp only at ha hb hc hd he
  have hQ : 0 < Q := by omega
  obtain ⟨f1, f2, f3, f4⟩ := step_facts (d := d) (r := r) hQ he
  generalize step d r (P, Q) = s' at *
  obtain ⟨P', Q'⟩ := s'
  dsimp only at *
  have hq : 1 ≤ (P + r) / Q := by
    rw [Int.le_ediv_iff_mul_le hQ]; omega
  have hge : Q ≤ P + P' := by rw [f4]; nlinarith
  have hP : 0 < P' := by
    rcases le_or_gt Q r with h | h <;> omega
  refine ⟨hP, f1, ?_, ?_, ⟨Q, by dsimp only; rw [← f3]; ring⟩⟩
  · dsimp only
    by_contra hcon
    push Not at hcon
    nlinarith
  · dsimp only
    by_contra hcon
    push Not at hcon
    nlinarith

theorem step_inj {s t : ℤ × ℤ} (hs : Reduced d r s) (ht : Reduced d r t) (h1 : r * r < d)
    (h2 : d < (r + 1) * (r + 1)) (h : step d r s = step d r t) : s = t := by
  have hr := step_reduced h1 h2 hs
  obtain ⟨P, Q⟩ := s
  obtain ⟨P₁, Q₁⟩ := t
  obtain ⟨f1, f2, f3, f4⟩ := step_facts (d := d) (r := r) hs.posQ hs.dvd
  obtain ⟨g1, g2, g3, g4⟩ := step_facts (d := d) (r := r) ht.posQ ht.dvd
  rw [← h] at g1 g2 g3 g4
  have hpos := hr.posQ
  generalize step d r (P, Q) = s' at *
  obtain ⟨P', Q'⟩ := s'
  dsimp only at *
  have hQ : Q = Q₁ := by
    have : Q * Q' = Q₁ * Q' := by rw [f3, g3]
    exact mul_right_cancel₀ (ne_of_gt hpos) this
  subst hQ
  have hQ := hs.posQ
  have e1 := hs.le
  have e2 := hs.lt
  have e3 := ht.le
  have e4 := ht.lt
  dsimp only at *
  have q1 : (P' + r) / Q = (P + r) / Q := by
    have : P' + r = (r - P) + (P + r) / Q * Q := by rw [← f4]; ring
    rw [this, Int.add_mul_ediv_right _ _ (ne_of_gt hQ), Int.ediv_eq_zero_of_lt (by omega) (by omega), zero_add]
  have q2 : (P' + r) / Q = (P₁ + r) / Q := by
    have : P' + r = (r - P₁) + (P₁ + r) / Q * Q := by rw [← g4]; ring
    rw [this, Int.add_mul_ediv_right _ _ (ne_of_gt hQ), Int.ediv_eq_zero_of_lt (by omega) (by omega), zero_add]
  have : P = P₁ := by
    have : P + P' = P₁ + P' := by rw [f4, g4, ← q1, ← q2]
    omega
  rw [this]

theorem reduced_base (h1 : r * r < d) (hr : 1 ≤ r) : Reduced d r (r, 1) :=
  ⟨by dsimp only; omega, le_rfl, by dsimp only; omega, by dsimp only; omega, one_dvd _⟩

theorem reduced_iterate (h1 : r * r < d) (h2 : d < (r + 1) * (r + 1)) (hr : 1 ≤ r) (n : ℕ) :
    Reduced d r ((step d r)^[n] (r, 1)) := by
  induction n with
  | zero => exact reduced_base h1 hr
  | succ n ih => rw [Function.iterate_succ_apply']; exact step_reduced h1 h2 ih

theorem finite_reduced (d r : ℤ) : {s | Reduced d r s}.Finite := by
  apply Set.Finite.subset (Set.Finite.prod (Set.finite_Icc (0 : ℤ) r) (Set.finite_Icc (0 : ℤ) (2 * r)))
  rintro ⟨P, Q⟩ h
  have h0 := h.posQ
  obtain ⟨ha, hb, hc, hd, -⟩ := h
  dsimp only at *
  exact ⟨⟨by omega, by omega⟩, ⟨by omega, by omega⟩⟩

/-- The expansion is periodic. -/
theorem periodic (h1 : r * r < d) (h2 : d < (r + 1) * (r + 1)) (hr : 1 ≤ r) :
    0 < Function.minimalPeriod (step d r) (r, 1) := by
  set f : {s | Reduced d r s} → {s | Reduced d r s} := fun s => ⟨step d r s.1, step_reduced h1 h2 s.2⟩ with hf
  have hinj : Function.Injective f := by
    intro a b hab
    exact Subtype.ext (step_inj a.2 b.2 h1 h2 (Subtype.ext_iff.1 hab))
  haveI : Finite {s | Reduced d r s} := finite_reduced d r
  obtain ⟨k, hk, hp⟩ := hinj.mem_periodicPts ⟨(r, 1), reduced_base h1 hr⟩
  apply Function.IsPeriodicPt.minimalPeriod_pos hk
  have key : ∀ n, ((f^[n] ⟨(r, 1), reduced_base h1 hr⟩ : {s | Reduced d r s}) : ℤ × ℤ) = (step d r)^[n] (r, 1) := by
    intro n
    induction n with
    | zero => rfl
    | succ n ih => rw [Function.iterate_succ_apply', Function.iterate_succ_apply', ← ih]
  show (step d r)^[k] (r, 1) = (r, 1)
  rw [← key, hp]

/-- The partial quotient of a state. -/
def quot (r : ℤ) (s : ℤ × ℤ) : ℤ := (s.1 + r) / s.2

theorem quot_eq_iff (hr : 1 ≤ r) {s : ℤ × ℤ} (h : Reduced d r s) : quot r s = 2 * r ↔ s = (r, 1) := by
  obtain ⟨P, Q⟩ := s
  have hQ := h.posQ
  have hle := h.le
  have hpos := h.pos
  dsimp only at *
  constructor
  · intro hq
    have h3 : 2 * r * Q ≤ P + r := by
      rw [← Int.le_ediv_iff_mul_le hQ]; exact hq.ge
    have hQ1 : Q = 1 := by
      by_contra hne
      have : 2 ≤ Q := by omega
      nlinarith
    subst hQ1
    have : P = r := by omega
    rw [this]
  · intro he
    rw [he, quot]
    dsimp only
    rw [Int.ediv_one]; ring

theorem step_base : step d r (r, 1) = (r, d - r * r) := by
  have h : (r + r) / 1 * 1 - r = r := by rw [Int.ediv_one]; ring
  rw [step]
  dsimp only
  rw [h, Int.ediv_one]

/-- The state number `n` of the expansion of the square root. -/
def state (d r : ℤ) (n : ℕ) : ℤ × ℤ := if n = 0 then (0, 1) else (step d r)^[n] (r, 1)

theorem state_succ (d r : ℤ) (n : ℕ) : state d r (n + 1) = step d r (state d r n) := by
  rw [state, if_neg (Nat.succ_ne_zero n), Function.iterate_succ_apply']
  rcases Nat.eq_zero_or_pos n with rfl | hn
  · rw [Function.iterate_zero, id, step_base]
    have h : (0 + r) / 1 * 1 - 0 = r := by rw [Int.ediv_one]; ring
    rw [state, if_pos rfl, step]
    dsimp only
    rw [h, Int.ediv_one]
  · rw [state, if_neg (by omega)]

/-- The loop of `_initialize_sqrt` from a state before the end of the period. -/
theorem sqrtLoop_spec (h1 : r * r < d) (h2 : d < (r + 1) * (r + 1)) (hr : 1 ≤ r) (m n : ℕ) (terms : List ℤ)
    (hm : m + n = Function.minimalPeriod (step d r) (r, 1)) :
    sqrtLoop d r (state d r n).1 (state d r n).2 terms =
      some (.ok (terms ++ (List.range' n (m + 1)).map (fun i => quot r (state d r i)))) := by
  set L := Function.minimalPeriod (step d r) (r, 1) with hL
  have hLpos := periodic h1 h2 hr
  induction m generalizing n terms with
  | zero =>
    have hn : n = L := by omega
    have hs : state d r n = (r, 1) := by
      rw [state, if_neg (by omega), hn]
      exact Function.iterate_minimalPeriod
    rw [sqrtLoop.eq_def, hs]
    dsimp only
    have : (r + r).fdiv 1 = 2 * r := by rw [Int.fdiv_eq_ediv_of_nonneg _ (by omega), Int.ediv_one]; ring
    rw [if_neg (by omega), if_pos this, this]
    simp [hs, quot, two_mul]
  | succ m ih =>
    have hnL : n < L := by omega
    have hQ : 0 < (state d r n).2 := by
      rw [state]
      split
      · exact one_pos
      · exact (reduced_iterate h1 h2 hr n).posQ
    have hne : quot r (state d r n) ≠ 2 * r := by
      rcases Nat.eq_zero_or_pos n with rfl | hn
      · rw [state, if_pos rfl, quot]
        dsimp only
        rw [Int.ediv_one]; omega
      · rw [state, if_neg (by omega)]
        intro hq
        have := (quot_eq_iff hr (reduced_iterate h1 h2 hr n)).1 hq
        have := Function.IsPeriodicPt.minimalPeriod_le hn (show Function.IsPeriodicPt (step d r) n (r, 1) from this)
        omega
    rw [sqrtLoop.eq_def, if_neg (ne_of_gt hQ)]
    dsimp only
    have hfd : ∀ x : ℤ, x.fdiv (state d r n).2 = x / (state d r n).2 := fun x =>
      Int.fdiv_eq_ediv_of_nonneg _ hQ.le
    rw [hfd, if_neg (show ¬ ((state d r n).1 + r) / (state d r n).2 = 2 * r from hne)]
    rw [hfd]
    have hst := state_succ d r n
    have e1 : ((state d r n).1 + r) / (state d r n).2 * (state d r n).2 - (state d r n).1 = (state d r (n + 1)).1 := by
      rw [hst]; rfl
    rw [e1]
    have e2 : (d - (state d r (n + 1)).1 * (state d r (n + 1)).1) / (state d r n).2 = (state d r (n + 1)).2 := by
      rw [hst]; rfl
    rw [e2, ih (n + 1) _ (by omega)]
    rw [show List.range' n (m + 1 + 1) = n :: List.range' (n + 1) (m + 1) from List.range'_succ]
    simp [quot]

end Rosemary.ContinuedFractions
