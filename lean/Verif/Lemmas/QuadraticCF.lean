import Verif.Lemmas.SqrtPell

/-!
# The continued fraction of a quadratic irrational

The states `(P, Q)` of the loop stay in a finite set when the conjugate of the number lies below its integer part.
-/

namespace Rosemary.ContinuedFractions

open Rosemary.Spec

variable {d r : ℤ}

/-- The states after the first one. -/
structure SemiReduced (d r : ℤ) (s : ℤ × ℤ) : Prop where
  ge : -r ≤ s.1
  le : s.1 ≤ r
  pos : 0 < s.2
  le' : s.2 ≤ r + s.1
  dvd : s.2 ∣ d - s.1 * s.1

theorem step_semi {s : ℤ × ℤ} (h1 : r * r < d) (h2 : d < (r + 1) * (r + 1)) (hr : 1 ≤ r) (hQ : 0 < s.2)
    (hdvd : s.2 ∣ d - s.1 * s.1) (hge : -r ≤ (step d r s).1) : SemiReduced d r (step d r s) := by
  obtain ⟨f1, f2, f3, f4⟩ := step_facts (d := d) (r := r) hQ hdvd
  rw [Prod.mk.eta] at f1 f2 f3 f4
  have hpos : 0 < (step d r s).2 := by
    have : 0 < s.2 * (step d r s).2 := by rw [f3]; nlinarith
    exact pos_of_mul_pos_right this hQ.le
  refine ⟨hge, f1, hpos, ?_, ?_⟩
  · by_contra hlt
    push Not at hlt
    have : (r - (step d r s).1 + 1) * (r + (step d r s).1 + 1) ≤ s.2 * (step d r s).2 :=
      mul_le_mul (by omega) (by omega) (by omega) hQ.le
    nlinarith
  · exact ⟨s.2, f3.symm.trans (mul_comm _ _)⟩

theorem semi_step {s : ℤ × ℤ} (h1 : r * r < d) (h2 : d < (r + 1) * (r + 1)) (hr : 1 ≤ r) (h : SemiReduced d r s) :
    SemiReduced d r (step d r s) := by
  refine step_semi h1 h2 hr h.pos h.dvd ?_
  obtain ⟨-, -, -, f4⟩ := step_facts (d := d) (r := r) h.pos h.dvd
  rw [Prod.mk.eta] at f4
  have hq : 1 ≤ (s.1 + r) / s.2 := by
    rw [Int.le_ediv_iff_mul_le h.pos]; have := h.le'; omega
  have := h.le
  have hp := h.pos
  nlinarith

theorem finite_semi (d r : ℤ) : {s | SemiReduced d r s}.Finite := by
  apply Set.Finite.subset (Set.finite_Icc ((-r, 0) : ℤ × ℤ) (r, 2 * r))
  intro s hs
  have h1 := hs.ge
  have h2 := hs.le
  have h3 := hs.pos
  have h4 := hs.le'
  exact ⟨Prod.mk_le_mk.2 ⟨by omega, by omega⟩, Prod.mk_le_mk.2 ⟨by omega, by omega⟩⟩

/-- The states from a given one on. -/
def states (d r : ℤ) (s : ℤ × ℤ) (n : ℕ) : ℤ × ℤ := (step d r)^[n] s

theorem states_succ (s : ℤ × ℤ) (n : ℕ) : states d r s (n + 1) = step d r (states d r s n) :=
  Function.iterate_succ_apply' _ _ _

/-- A good starting state. -/
structure Start (d r : ℤ) (s : ℤ × ℤ) : Prop where
  h1 : r * r < d
  h2 : d < (r + 1) * (r + 1)
  hr : 1 ≤ r
  pos : 0 < s.2
  dvd : s.2 ∣ d - s.1 * s.1
  ge : -r ≤ (step d r s).1

theorem states_semi {s : ℤ × ℤ} (h : Start d r s) (n : ℕ) : SemiReduced d r (states d r s (n + 1)) := by
  induction n with
  | zero => exact step_semi h.h1 h.h2 h.hr h.pos h.dvd h.ge
  | succ n ih => rw [states_succ]; exact semi_step h.h1 h.h2 h.hr ih

theorem states_facts {s : ℤ × ℤ} (h : Start d r s) (n : ℕ) :
    0 < (states d r s n).2 ∧ (states d r s n).2 ∣ d - (states d r s n).1 * (states d r s n).1 := by
  cases n with
  | zero => exact ⟨h.pos, h.dvd⟩
  | succ n => exact ⟨(states_semi h n).pos, (states_semi h n).dvd⟩

theorem floor_quot (h1 : r * r < d) (h2 : d < (r + 1) * (r + 1)) (hr : 1 ≤ r) (P Q : ℤ) (hQ : 0 < Q) :
    ⌊((P : ℝ) + √(d : ℝ)) / (Q : ℝ)⌋ = (P + r) / Q := by
  obtain ⟨b1, b2⟩ := sqrt_bounds h1 h2 hr
  have hQ' : (0 : ℝ) < Q := by exact_mod_cast hQ
  have h3 := Int.mul_ediv_add_emod (P + r) Q
  have h4 := Int.emod_nonneg (P + r) (ne_of_gt hQ)
  have h5 := Int.emod_lt_of_pos (P + r) hQ
  rw [Int.floor_eq_iff, le_div_iff₀ hQ', div_lt_iff₀ hQ']
  constructor
  · have : (P + r) / Q * Q ≤ P + r := by rw [mul_comm]; omega
    have : (((P + r) / Q : ℤ) : ℝ) * Q ≤ P + r := by exact_mod_cast this
    linarith
  · have : P + r + 1 ≤ ((P + r) / Q + 1) * Q := by
      have : ((P + r) / Q + 1) * Q = Q * ((P + r) / Q) + Q := by ring
      omega
    have : (P : ℝ) + r + 1 ≤ (((P + r) / Q : ℤ) + 1) * Q := by exact_mod_cast this
    linarith

theorem completeQuotient_states {s : ℤ × ℤ} (h : Start d r s) (n : ℕ) :
    completeQuotient ((s.1 + √(d : ℝ)) / s.2) n = ((states d r s n).1 + √(d : ℝ)) / (states d r s n).2 ∧
      cfQuotient ((s.1 + √(d : ℝ)) / s.2) n = quot r (states d r s n) := by
  have key : completeQuotient ((s.1 + √(d : ℝ)) / s.2) n = ((states d r s n).1 + √(d : ℝ)) / (states d r s n).2 := by
    induction n with
    | zero => rfl
    | succ n ih =>
      obtain ⟨hQ, hdvd⟩ := states_facts h n
      obtain ⟨hQ1, -⟩ := states_facts h (n + 1)
      rw [completeQuotient, ih, Int.fract, floor_quot h.h1 h.h2 h.hr _ _ hQ]
      obtain ⟨-, -, f3, f4⟩ := step_facts (d := d) (r := r) hQ hdvd
      rw [Prod.mk.eta, ← states_succ] at f3 f4
      generalize states d r s n = s0 at *
      generalize states d r s (n + 1) = s1 at *
      have hQ' : (s0.2 : ℝ) ≠ 0 := by exact_mod_cast ne_of_gt hQ
      have hQ1' : (s1.2 : ℝ) ≠ 0 := by exact_mod_cast ne_of_gt hQ1
      have f3' : (s0.2 : ℝ) * s1.2 = d - s1.1 * s1.1 := by exact_mod_cast f3
      have f4' : (s0.1 : ℝ) + s1.1 = ((s0.1 + r) / s0.2 : ℤ) * s0.2 := by exact_mod_cast f4
      have hsq : √(d : ℝ) * √(d : ℝ) = d := Real.mul_self_sqrt (by
        have h1 := h.h1
        have : (0 : ℤ) ≤ d := by nlinarith
        exact_mod_cast this)
      have e1 : (s0.1 + √(d : ℝ)) / s0.2 - ((s0.1 + r) / s0.2 : ℤ) = (√(d : ℝ) - s1.1) / s0.2 := by
        rw [sub_eq_iff_eq_add, div_add' _ _ _ hQ', ← f4']
        congr 1; ring
      rw [e1, inv_div]
      have hne : √(d : ℝ) - s1.1 ≠ 0 := by
        intro h0
        have h6 : (d : ℝ) - s1.1 * s1.1 = 0 := by linear_combination (√(d : ℝ) + s1.1) * h0 - hsq
        rw [← f3'] at h6
        exact (mul_ne_zero hQ' hQ1') h6
      rw [div_eq_div_iff hne hQ1', f3']
      linear_combination -hsq
  exact ⟨key, by rw [cfQuotient, key, floor_quot h.h1 h.h2 h.hr _ _ (states_facts h n).1]; rfl⟩

/-- There is a first repetition in a sequence with a finite set of values. -/
theorem exists_repetition {S : ℕ → ℤ × ℤ} (hfin : {s | SemiReduced d r s}.Finite) (hS : ∀ n, SemiReduced d r (S (n + 1))) :
    ∃ j k, j < k ∧ S j = S k ∧ ∀ a b, a < b → b < k → S a ≠ S b := by
  classical
  have hex : ∃ k, ∃ j, j < k ∧ S j = S k := by
    by_contra hno
    push Not at hno
    have hinj : Function.Injective (fun n => S (n + 1)) := by
      intro a b hab
      rcases lt_trichotomy a b with h | h | h
      · exact absurd hab (hno (b + 1) (a + 1) (by omega))
      · exact h
      · exact absurd hab.symm (hno (a + 1) (b + 1) (by omega))
    exact Set.infinite_range_of_injective hinj (hfin.subset (by rintro _ ⟨n, rfl⟩; exact hS n))
  obtain ⟨j, h3, h4⟩ := Nat.find_spec hex
  exact ⟨j, Nat.find hex, h3, h4, fun a b hab hb he => Nat.find_min hex hb ⟨a, hab, he⟩⟩

/-- The loop stops at the first repetition; `S` is the sequence of states with the first one replaced by the seed of the
dictionary. -/
theorem quadLoop_spec {s : ℤ × ℤ} (h : Start d r s) (S : ℕ → ℤ × ℤ) (hS : ∀ n, S (n + 1) = states d r s (n + 1))
    {j k : ℕ} (hjk : j < k) (he : S j = S k) (hmin : ∀ a b, a < b → b < k → S a ≠ S b) (m i : ℕ) (him : i + 1 + m = k) :
    quadLoop d r (states d r s i).1 (states d r s i).2 ((List.range (i + 1)).map (fun a => (S a, a)))
      ((List.range i).map (fun a => quot r (states d r s a))) (i + 1) =
      some (.ok ((List.range k).map (fun a => quot r (states d r s a)), j)) := by
  induction m generalizing i with
  | zero =>
    have hk : k = i + 1 := by omega
    obtain ⟨hQ, hdvd⟩ := states_facts h i
    rw [quadLoop.eq_def, if_neg (ne_of_gt hQ)]
    dsimp only
    have hfd : ∀ x : ℤ, x.fdiv (states d r s i).2 = x / (states d r s i).2 := fun x =>
      Int.fdiv_eq_ediv_of_nonneg _ hQ.le
    rw [hfd, hfd]
    have hst : (((states d r s i).1 + r) / (states d r s i).2 * (states d r s i).2 - (states d r s i).1,
        (d - (((states d r s i).1 + r) / (states d r s i).2 * (states d r s i).2 - (states d r s i).1) *
          (((states d r s i).1 + r) / (states d r s i).2 * (states d r s i).2 - (states d r s i).1)) /
          (states d r s i).2) = S k := by
      rw [hk, hS, states_succ]; rfl
    rw [hst]
    have hfind : ((List.range (i + 1)).map (fun a => (S a, a))).find? (fun e => decide (e.1 = S k)) = some (S j, j) := by
      have hmem : (S j, j) ∈ (List.range (i + 1)).map (fun a => (S a, a)) :=
        List.mem_map.2 ⟨j, List.mem_range.2 (by omega), rfl⟩
      cases hf : ((List.range (i + 1)).map (fun a => (S a, a))).find? (fun e => decide (e.1 = S k)) with
      | none =>
        rw [List.find?_eq_none] at hf
        exact absurd (decide_eq_true he) (hf _ hmem)
      | some e =>
        have h3 := List.find?_some hf
        have h4 := List.mem_of_find?_eq_some hf
        obtain ⟨a, ha, rfl⟩ := List.mem_map.1 h4
        rw [List.mem_range] at ha
        have h5 : S a = S j := (of_decide_eq_true h3).trans he.symm
        have : a = j := by
          rcases lt_trichotomy a j with hlt | heq | hlt
          · exact absurd h5 (hmin a j hlt hjk)
          · exact heq
          · exact absurd h5.symm (hmin j a hlt (by omega))
        rw [this]
    rw [hfind]
    dsimp only
    rw [hk, List.range_succ, List.map_append]
    rfl
  | succ m ih =>
    obtain ⟨hQ, hdvd⟩ := states_facts h i
    rw [quadLoop.eq_def, if_neg (ne_of_gt hQ)]
    dsimp only
    have hfd : ∀ x : ℤ, x.fdiv (states d r s i).2 = x / (states d r s i).2 := fun x =>
      Int.fdiv_eq_ediv_of_nonneg _ hQ.le
    rw [hfd, hfd]
    have hst : (((states d r s i).1 + r) / (states d r s i).2 * (states d r s i).2 - (states d r s i).1,
        (d - (((states d r s i).1 + r) / (states d r s i).2 * (states d r s i).2 - (states d r s i).1) *
          (((states d r s i).1 + r) / (states d r s i).2 * (states d r s i).2 - (states d r s i).1)) /
          (states d r s i).2) = S (i + 1) := by
      rw [hS, states_succ]; rfl
    rw [hst]
    have hfind : ((List.range (i + 1)).map (fun a => (S a, a))).find? (fun e => decide (e.1 = S (i + 1))) = none := by
      rw [List.find?_eq_none]
      intro e hmem
      obtain ⟨a, ha, rfl⟩ := List.mem_map.1 hmem
      rw [List.mem_range] at ha
      rw [decide_eq_true_eq]
      exact hmin a (i + 1) ha (by omega)
    rw [hfind]
    dsimp only
    have e1 : ((states d r s i).1 + r) / (states d r s i).2 * (states d r s i).2 - (states d r s i).1 =
        (states d r s (i + 1)).1 := by rw [states_succ]; rfl
    rw [e1]
    have e2 : (d - (states d r s (i + 1)).1 * (states d r s (i + 1)).1) / (states d r s i).2 =
        (states d r s (i + 1)).2 := by rw [states_succ]; rfl
    rw [e2]
    have e3 : (List.range (i + 1)).map (fun a => (S a, a)) ++ [(S (i + 1), i + 1)] =
        (List.range (i + 1 + 1)).map (fun a => (S a, a)) := by rw [List.range_succ (n := i + 1), List.map_append]; rfl
    have e4 : (List.range i).map (fun a => quot r (states d r s a)) ++ [((states d r s i).1 + r) / (states d r s i).2] =
        (List.range (i + 1)).map (fun a => quot r (states d r s a)) := by rw [List.range_succ, List.map_append]; rfl
    rw [e3, e4]
    exact ih (i + 1) (by omega)

theorem states_periodic (s : ℤ × ℤ) {j k : ℕ} (hjk : j < k) (he : states d r s j = states d r s k) (n : ℕ) (hn : j ≤ n) :
    states d r s n = states d r s (j + (n - j) % (k - j)) := by
  have hstep : ∀ i, j ≤ i → states d r s (i + (k - j)) = states d r s i := by
    intro i hi
    have e1 : i + (k - j) = (i - j) + k := by omega
    have e2 : i = (i - j) + j := by omega
    rw [e1]
    conv_rhs => rw [e2]
    rw [states, states, Function.iterate_add_apply, Function.iterate_add_apply]
    exact congrArg _ he.symm
  have hmul : ∀ t i, j ≤ i → states d r s (i + (k - j) * t) = states d r s i := by
    intro t
    induction t with
    | zero => intro i _; rw [Nat.mul_zero, Nat.add_zero]
    | succ t ih => intro i hi; rw [Nat.mul_succ, ← Nat.add_assoc, hstep _ (by omega), ih i hi]
  have e : n = (j + (n - j) % (k - j)) + (k - j) * ((n - j) / (k - j)) := by
    have := Nat.mod_add_div (n - j) (k - j)
    omega
  conv_lhs => rw [e]
  exact hmul _ _ (by omega)

/-- The object that the general initializer makes. -/
theorem finish_spec {s : ℤ × ℤ} (h : Start d r s) (S : ℕ → ℤ × ℤ) (hS : ∀ n, S (n + 1) = states d r s (n + 1))
    (h0 : S 0 = s ∨ ∀ n, S (n + 1) ≠ S 0) :
    ∃ c, initQuadratic.finish (quadLoop d r s.1 s.2 [(S 0, 0)] [] 1) = some (.ok c) ∧
      (∀ n, partialQuotient c n = quot r (states d r s n)) ∧
      0 < c.periodLength ∧ c.fundamentalPeriod.length = c.periodLength := by
  obtain ⟨j, k, hjk, he, hmin⟩ := exists_repetition (S := S) (finite_semi d r) (fun n => by rw [hS]; exact states_semi h n)
  have hs := quadLoop_spec h S hS hjk he hmin (k - 1) 0 (by omega)
  have hst : states d r s j = states d r s k := by
    obtain ⟨k', rfl⟩ : ∃ k', k = k' + 1 := ⟨k - 1, by omega⟩
    rw [← hS, ← he]
    cases j with
    | zero =>
      rcases h0 with h0 | h0
      · rw [h0]; rfl
      · exact absurd he.symm (h0 k')
    | succ j => rw [hS]
  have hs' : quadLoop d r s.1 s.2 [(S 0, 0)] [] 1 = some (.ok ((List.range k).map (fun a => quot r (states d r s a)), j)) := hs
  rw [hs']
  refine ⟨_, rfl, ?_, ?_, ?_⟩
  · intro n
    rw [partialQuotient]
    simp only [List.length_take, List.length_map, List.length_range, List.length_drop]
    have hm : min j k = j := by omega
    rw [hm]
    by_cases hn : n < j
    · rw [if_pos hn, List.getD_eq_getElem _ _ (by simp; omega), List.getElem_take, List.getElem_map, List.getElem_range]
    · have hlt := Nat.mod_lt (n - j) (show 0 < k - j by omega)
      rw [if_neg hn, List.getD_eq_getElem _ _ (by simp; omega), List.getElem_drop, List.getElem_map, List.getElem_range,
        states_periodic s hjk hst n (by omega)]
  · simp; omega
  · simp

/-- The loop with a bound on the number of rounds. -/
def quadLoopN (D r : ℤ) : ℕ → ℤ → ℤ → List ((ℤ × ℤ) × ℕ) → List ℤ → ℕ → Option (Except PyErr (List ℤ × ℕ))
  | 0, _, _, _, _, _ => none
  | n + 1, P, Q, pairs, quotients, i =>
    if Q = 0 then some (.error .zeroDivisionError)
    else
      let a := (P + r).fdiv Q
      let P' := a * Q - P
      let Q' := (D - P' * P').fdiv Q
      match pairs.find? (fun e => e.1 = (P', Q')) with
      | some e => some (.ok (quotients ++ [a], e.2))
      | none => quadLoopN D r n P' Q' (pairs ++ [((P', Q'), i)]) (quotients ++ [a]) (i + 1)

theorem quadLoop_of_fuel (D r : ℤ) (n : ℕ) (P Q : ℤ) (pairs : List ((ℤ × ℤ) × ℕ)) (quotients : List ℤ) (i : ℕ)
    (res : Except PyErr (List ℤ × ℕ)) (h : quadLoopN D r n P Q pairs quotients i = some res) :
    quadLoop D r P Q pairs quotients i = some res := by
  induction n generalizing P Q pairs quotients i with
  | zero => exact absurd h (by simp [quadLoopN])
  | succ n ih =>
    rw [quadLoopN] at h
    rw [quadLoop.eq_def]
    by_cases hQ : Q = 0
    · rw [if_pos hQ] at h ⊢; exact h
    · rw [if_neg hQ] at h ⊢
      dsimp only at h ⊢
      cases hf : pairs.find? (fun e => decide (e.1 = ((P + r).fdiv Q * Q - P,
          (D - ((P + r).fdiv Q * Q - P) * ((P + r).fdiv Q * Q - P)).fdiv Q))) with
      | some e => rw [hf] at h; exact h
      | none => rw [hf] at h; exact ih _ _ _ _ _ h

end Rosemary.ContinuedFractions
