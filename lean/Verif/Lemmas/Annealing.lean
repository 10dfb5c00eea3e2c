import Verif.Lemmas.TwoOpt

/-!
# Random exchanges and simulated annealing
-/

namespace Rosemary.Tsp

open Rosemary.Spec

variable {R : Type} [AddCommGroup R] [LinearOrder R]

theorem stretch_perm (X : List ℕ) (lo hi : ℕ) (h : lo ≤ hi + 1) :
    (X.take lo ++ ((X.take (hi + 1)).drop lo).reverse ++ X.drop (hi + 1)).Perm X := by
  have h1 : X.take lo ++ (X.take (hi + 1)).drop lo = X.take (hi + 1) := by
    conv_rhs => rw [← List.take_append_drop lo (X.take (hi + 1))]
    rw [List.take_take, min_eq_left h]
  refine (List.Perm.append_right _ (List.Perm.append_left _ (List.reverse_perm _))).trans ?_
  rw [h1, List.take_append_drop]

theorem randomTwoOpt_perm (path : List ℕ) (a : ℕ) (bs : ℕ → ℕ) (k : ℕ) (r : List ℕ)
    (h : randomTwoOpt path a bs k = some r) : ∃ b, (∃ m, k ≤ m ∧ bs m = b) ∧ a ≠ b ∧ a + 1 ≠ b ∧ b + 1 ≠ a ∧
      ¬ (a = 0 ∧ b + 1 = path.length) ∧ ¬ (a + 1 = path.length ∧ b = 0) ∧
      r = path.take (min a b) ++ ((path.take (max a b + 1)).drop (min a b)).reverse ++ path.drop (max a b + 1) := by
  refine randomTwoOpt.partial_correctness path a bs (motive := fun k r => ∃ b, (∃ m, k ≤ m ∧ bs m = b) ∧ a ≠ b ∧
    a + 1 ≠ b ∧ b + 1 ≠ a ∧ ¬ (a = 0 ∧ b + 1 = path.length) ∧ ¬ (a + 1 = path.length ∧ b = 0) ∧
    r = path.take (min a b) ++ ((path.take (max a b + 1)).drop (min a b)).reverse ++ path.drop (max a b + 1)) ?_ k r h
  intro f ih k r hr
  dsimp only at hr
  split at hr
  · obtain ⟨b, ⟨m, hm, hb⟩, hrest⟩ := ih _ _ hr
    exact ⟨b, ⟨m, by omega, hb⟩, hrest⟩
  · rename_i h1
    split at hr
    · obtain ⟨b, ⟨m, hm, hb⟩, hrest⟩ := ih _ _ hr
      exact ⟨b, ⟨m, by omega, hb⟩, hrest⟩
    · rename_i h2
      rw [not_or, not_or] at h1
      rw [not_or] at h2
      refine ⟨bs k, ⟨k, le_rfl, rfl⟩, h1.1, h1.2.1, h1.2.2, h2.1, h2.2, ?_⟩
      rw [Option.some.injEq] at hr
      rw [← hr]
      by_cases hlt : bs k < a
      · rw [if_pos hlt, if_pos hlt, min_eq_right hlt.le, max_eq_left hlt.le]
      · rw [if_neg hlt, if_neg hlt, min_eq_left (not_lt.1 hlt), max_eq_right (not_lt.1 hlt)]

/-- The state of the annealing: both lists are tours and the value belongs to the first. -/
structure State (D : ℕ → ℕ → R) (n : ℕ) (s : R × List ℕ × List ℕ) : Prop where
  best : IsTour n s.2.1
  sol : IsTour n s.2.2
  val : s.1 = tourLength D s.2.1

theorem annealStep_spec {D : ℕ → ℕ → R} {n : ℕ} (hn : 0 < n) {s : R × List ℕ × List ℕ} (h : State D n s) (k j : ℕ)
    (hjk : j ≤ k + 1) (acc : Bool) : ∃ s', annealStep D n s k j acc = .ok s' ∧ State D n s' ∧ s'.1 ≤ s.1 := by
  obtain ⟨best, bsol, sol⟩ := s
  obtain ⟨h1, h2, h3⟩ := h
  dsimp only at h1 h2 h3
  rw [annealStep]
  dsimp only
  have hp := stretch_perm sol j k hjk
  set new := sol.take j ++ ((sol.take (k + 1)).drop j).reverse ++ sol.drop (k + 1)
  have hnew : IsTour n new := isTour_iff.2 (hp.trans (isTour_iff.1 h2))
  have hne : ∀ l, IsTour n l → l ≠ [] := by
    rintro l hl rfl
    have := tour_length hl
    simp at this; omega
  rw [cost_eq D new n (tour_length hnew) (hne _ hnew), cost_eq D sol n (tour_length h2) (hne _ h2)]
  dsimp only
  split
  · split
    · rename_i hlt
      exact ⟨_, rfl, ⟨hnew, hnew, rfl⟩, hlt.le⟩
    · exact ⟨_, rfl, ⟨h1, hnew, h3⟩, le_rfl⟩
  · split
    · exact ⟨_, rfl, ⟨h1, hnew, h3⟩, le_rfl⟩
    · exact ⟨_, rfl, ⟨h1, h2, h3⟩, le_rfl⟩

theorem annealInner_spec {D : ℕ → ℕ → R} {n : ℕ} (hn : 3 ≤ n) (draws : List (ℕ × ℕ × Bool))
    (hd : ∀ d ∈ draws, d.2.1 ≤ d.1 + 1) {s : R × List ℕ × List ℕ} (h : State D n s) :
    ∃ s', annealInner D n draws s = .ok s' ∧ State D n s' ∧ s'.1 ≤ s.1 := by
  rw [annealInner]
  induction draws generalizing s with
  | nil => exact ⟨s, rfl, h, le_rfl⟩
  | cons d draws ih =>
    obtain ⟨s1, h1, h2, h3⟩ := annealStep_spec (by omega) h d.1 d.2.1 (hd d (by simp)) d.2.2
    obtain ⟨s2, h4, h5, h6⟩ := ih (fun d hd' => hd d (by simp [hd'])) h2
    refine ⟨s2, ?_, h5, h6.trans h3⟩
    rw [List.foldlM_cons, if_neg (by omega), h1]
    exact h4

/-- The number of tours shorter than `b`. -/
def shorter (D : ℕ → ℕ → R) (n : ℕ) (b : R) : ℕ := (List.range n).permutations.countP (fun t => tourLength D t < b)

theorem shorter_lt {D : ℕ → ℕ → R} {n : ℕ} {b : R} {t : List ℕ} (ht : IsTour n t) (h : tourLength D t < b) :
    shorter D n (tourLength D t) < shorter D n b := by
  obtain ⟨s, u, hsu⟩ := List.append_of_mem (List.mem_permutations.2 (isTour_iff.1 ht))
  rw [shorter, shorter, hsu, List.countP_append, List.countP_append, List.countP_cons, List.countP_cons]
  have hmono : ∀ u : List (List ℕ), u.countP (fun x => decide (tourLength D x < tourLength D t)) ≤
      u.countP (fun x => decide (tourLength D x < b)) := by
    intro u
    apply List.countP_mono_left
    intro x _ hx
    simp only [decide_eq_true_eq] at *
    exact hx.trans h
  have e1 := hmono s
  have e2 := hmono u
  simp only [lt_self_iff_false, decide_false, Bool.false_eq_true, if_false, h, decide_true, if_true]
  omega

/-- The comparison of `best_value` with `old_value`. -/
def close (tol best : R) (old : Option R) : Bool :=
  match old with
  | none => false
  | some o => decide (best - o < tol ∧ o - best < tol)

theorem annealLoop_eq (D : ℕ → ℕ → R) (n : ℕ) (tol : R) (draws : ℕ → List (ℕ × ℕ × Bool)) (t count : ℕ) (old : Option R)
    (best : R) (sol : List ℕ) : annealLoop D n tol draws t count old best sol =
      if close tol best old = true ∧ count + 1 = 1000 then some (.ok (best, sol))
      else
        match annealInner D n (draws t) (best, sol, sol) with
        | .error e => some (.error e)
        | .ok (best', sol', _) => annealLoop D n tol draws (t + 1) (if close tol best old then count + 1 else 0)
          (if close tol best old then old else some best) best' sol' := by
  rw [annealLoop.eq_def]; rfl

variable [IsOrderedAddMonoid R]

theorem annealLoop_spec {D : ℕ → ℕ → R} {n : ℕ} (hn : 3 ≤ n) {tol : R} (htol : 0 < tol)
    (draws : ℕ → List (ℕ × ℕ × Bool)) (hd : ∀ t, ∀ d ∈ draws t, d.2.1 ≤ d.1 + 1) (t count : ℕ) (hc : count < 1000)
    (old : Option R) (sol : List ℕ) (hsol : IsTour n sol) :
    ∃ sol', annealLoop D n tol draws t count old (tourLength D sol) sol = some (.ok (tourLength D sol', sol')) ∧
      IsTour n sol' ∧ tourLength D sol' ≤ tourLength D sol := by
  induction hm : shorter D n (tourLength D sol) using Nat.strong_induction_on generalizing t count old sol with
  | _ m ih =>
    -- as long as the value stays the same, the loop counts up to 1000
    have same : ∀ (gap t count : ℕ) (old : Option R) (sol' : List ℕ), count < 1000 →
        (if close tol (tourLength D sol') old then 0 else 1000) + (1000 - count) ≤ gap → IsTour n sol' →
        tourLength D sol' = tourLength D sol →
        ∃ sol'', annealLoop D n tol draws t count old (tourLength D sol') sol' = some (.ok (tourLength D sol'', sol'')) ∧
          IsTour n sol'' ∧ tourLength D sol'' ≤ tourLength D sol := by
      intro gap
      induction gap with
      | zero => intro t count old sol' hc hgap; omega
      | succ gap ihg =>
        intro t count old sol' hc hgap hsol' heq
        rw [annealLoop_eq]
        by_cases hcl : close tol (tourLength D sol') old = true ∧ count + 1 = 1000
        · rw [if_pos hcl]
          exact ⟨sol', rfl, hsol', heq.le⟩
        · rw [if_neg hcl]
          obtain ⟨⟨b, s1, s2⟩, h1, h2, h3⟩ := annealInner_spec hn (draws t) (hd t)
            (s := (tourLength D sol', sol', sol')) (D := D) ⟨hsol', hsol', rfl⟩
          rw [h1]
          dsimp only
          have hv := h2.val
          dsimp only at hv h3
          subst hv
          rcases lt_or_eq_of_le h3 with hlt | he
          · obtain ⟨s', h4, h5, h6⟩ := ih (shorter D n (tourLength D s1)) (by
              rw [← hm]; exact shorter_lt h2.best (heq ▸ hlt)) (t + 1)
              (if close tol (tourLength D sol') old then count + 1 else 0) (by
                split
                · rename_i h; rw [not_and] at hcl; have := hcl h; omega
                · omega) (if close tol (tourLength D sol') old then old else some (tourLength D sol')) s1 h2.best rfl
            exact ⟨s', h4, h5, h6.trans (h3.trans heq.le)⟩
          · by_cases hcc : close tol (tourLength D sol') old = true
            · rw [if_pos hcc, if_pos hcc]
              rw [if_pos hcc] at hgap
              have hne : count + 1 ≠ 1000 := fun h => hcl ⟨hcc, h⟩
              have hcc' : close tol (tourLength D s1) old = true := by rw [he]; exact hcc
              exact ihg _ _ _ _ (by omega) (by rw [if_pos hcc']; omega) h2.best (he.trans heq)
            · rw [if_neg hcc, if_neg hcc]
              rw [if_neg hcc] at hgap
              have hcc' : close tol (tourLength D s1) (some (tourLength D sol')) = true := by
                rw [he, close]
                simp [htol]
              exact ihg _ _ _ _ (by omega) (by rw [if_pos hcc']; omega) h2.best (he.trans heq)
    exact same _ t count old sol hc le_rfl hsol rfl

end Rosemary.Tsp
