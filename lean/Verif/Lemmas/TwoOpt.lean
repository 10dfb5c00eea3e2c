import Verif.Lemmas.Tours
import Mathlib.Data.List.Permutation
import Mathlib.Data.List.GetD

/-!
# Exchanges of two edges
-/

namespace Rosemary.Tsp

open Rosemary.Spec

variable {R : Type} [AddCommGroup R] [LinearOrder R]

theorem way_reverse {D : ℕ → ℕ → R} (hD : ∀ i j, D i j = D j i) (l : List ℕ) (a z : ℕ) :
    way D a l z = way D z l.reverse a := by
  induction l generalizing a with
  | nil => rw [way_nil, List.reverse_nil, way_nil, hD]
  | cons b l ih => rw [way_cons, List.reverse_cons, way_append, way_nil, ih, hD a b, add_comm]

theorem way_head (D : ℕ → ℕ → R) (r : List ℕ) (x y z : ℕ) :
    way D x r z - D x (r.headD z) = way D y r z - D y (r.headD z) := by
  cases r with
  | nil => simp [way_nil]
  | cons b r => simp [way_cons]

/-- The effect of reversing a stretch of a way, for symmetric distances. -/
theorem way_exchange {D : ℕ → ℕ → R} (hD : ∀ i j, D i j = D j i) (l : List ℕ) (a x : ℕ) (mid : List ℕ) (y : ℕ)
    (r : List ℕ) (z : ℕ) : way D a (l ++ y :: (mid.reverse ++ x :: r)) z = way D a (l ++ x :: (mid ++ y :: r)) z -
      (D (l.getLastD a) x + D y (r.headD z) - D x (r.headD z) - D (l.getLastD a) y) := by
  induction l generalizing a with
  | nil =>
    rw [List.nil_append, List.nil_append, way_cons, way_cons, way_append, way_append, way_reverse hD mid x y]
    have := way_head D r x y z
    rw [List.getLastD_nil]
    have h2 : way D x r z = way D y r z - D y (r.headD z) + D x (r.headD z) := by rw [← this]; abel
    rw [h2]; abel
  | cons b l ih =>
    rw [List.cons_append, List.cons_append, way_cons, way_cons, ih, List.getLastD_cons]; abel

/-- The parts of a list of at least two elements between the positions `i` and `j + 1`. -/
theorem split_list (X : List ℕ) (i j : ℕ) (hij : i + 2 ≤ j) (hj : j < X.length) :
    ∃ a l x mid y r, X = a :: (l ++ x :: (mid ++ y :: r)) ∧ l.length = i ∧ mid.length = j - i - 2 := by
  cases X with
  | nil => simp at hj
  | cons a X =>
    rw [List.length_cons] at hj
    refine ⟨a, X.take i, X[i]'(by omega), (X.drop (i + 1)).take (j - i - 2), X[j - 1]'(by omega), X.drop j, ?_, ?_, ?_⟩
    · congr 1
      conv_lhs => rw [← List.take_append_drop i X]
      congr 1
      rw [List.drop_eq_getElem_cons (by omega)]
      congr 1
      conv_lhs => rw [← List.take_append_drop (j - i - 2) (X.drop (i + 1))]
      congr 1
      rw [List.drop_drop, List.drop_eq_getElem_cons (by omega)]
      have : i + 1 + (j - i - 2) = j - 1 := by omega
      simp only [this]
      congr 2
      omega
    · rw [List.length_take]; omega
    · rw [List.length_take, List.length_drop]; omega

section Move

variable (a : ℕ) (l : List ℕ) (x : ℕ) (mid : List ℕ) (y : ℕ) (r : List ℕ)

theorem moveTwo_eq : moveTwo (a :: (l ++ x :: (mid ++ y :: r))) l.length (l.length + mid.length + 2) =
    a :: (l ++ y :: (mid.reverse ++ x :: r)) := by
  have h1 : (a :: (l ++ x :: (mid ++ y :: r))).take (l.length + 1) = a :: l := by simp
  have h2 : (a :: (l ++ x :: (mid ++ y :: r))) = (a :: (l ++ x :: (mid ++ [y]))) ++ r := by simp
  have hlen : (a :: (l ++ x :: (mid ++ [y]))).length = l.length + mid.length + 2 + 1 := by simp; omega
  have h3 : (a :: (l ++ x :: (mid ++ y :: r))).take (l.length + mid.length + 2 + 1) = a :: (l ++ x :: (mid ++ [y])) := by
    rw [h2, ← hlen, List.take_left']; rfl
  have h4 : (a :: (l ++ x :: (mid ++ y :: r))).drop (l.length + mid.length + 2 + 1) = r := by
    rw [h2, ← hlen, List.drop_left']; rfl
  rw [moveTwo, h1, h3, h4]
  simp

theorem getD_last (s : List ℕ) : (a :: (l ++ s)).getD l.length 0 = l.getLastD a := by
  induction l generalizing a with
  | nil => simp
  | cons b l ih => rw [List.length_cons, List.cons_append, List.getD_cons_succ, ih, List.getLastD_cons]

theorem gainTwo_eq (D : ℕ → ℕ → R) :
    gainTwo D (a :: (l ++ x :: (mid ++ y :: r))).length (a :: (l ++ x :: (mid ++ y :: r))) l.length
      (l.length + mid.length + 2) =
    D (l.getLastD a) x + D y (r.headD a) - D x (r.headD a) - D (l.getLastD a) y := by
  have hlen : (a :: (l ++ x :: (mid ++ y :: r))).length = l.length + mid.length + r.length + 3 := by
    simp; omega
  have h1 := getD_last a l (x :: (mid ++ y :: r))
  have h2 : (a :: (l ++ x :: (mid ++ y :: r))).getD ((l.length + 1) % (l.length + mid.length + r.length + 3)) 0 = x := by
    rw [Nat.mod_eq_of_lt (by omega), List.getD_cons_succ, List.getD_append_right _ _ _ _ le_rfl, Nat.sub_self]; rfl
  have h3 : (a :: (l ++ x :: (mid ++ y :: r))).getD (l.length + mid.length + 2) 0 = y := by
    rw [List.getD_cons_succ, List.getD_append_right _ _ _ _ (by omega)]
    have : l.length + mid.length + 1 - l.length = mid.length + 1 := by omega
    rw [this, List.getD_cons_succ, List.getD_append_right _ _ _ _ le_rfl, Nat.sub_self]; rfl
  have h4 : (a :: (l ++ x :: (mid ++ y :: r))).getD ((l.length + mid.length + 2 + 1) %
      (l.length + mid.length + r.length + 3)) 0 = r.headD a := by
    cases r with
    | nil => simp
    | cons b r =>
      rw [List.length_cons, Nat.mod_eq_of_lt (by omega), List.getD_cons_succ, List.getD_append_right _ _ _ _ (by omega)]
      have : l.length + mid.length + 2 - l.length = (mid.length + 1) + 1 := by omega
      rw [this, List.getD_cons_succ, List.getD_append_right _ _ _ _ (by omega)]
      have : mid.length + 1 - mid.length = 0 + 1 := by omega
      rw [this, List.getD_cons_succ]; rfl
  rw [gainTwo, hlen]
  rw [h1, h2, h3, h4]

end Move

/-- Reversal of a stretch gives a permutation and, for symmetric distances, shortens the tour by the gain. -/
theorem moveTwo_spec (X : List ℕ) (i j : ℕ) (hij : i + 2 ≤ j) (hj : j < X.length) : (moveTwo X i j).Perm X ∧
    ∀ D : ℕ → ℕ → R, (∀ i j, D i j = D j i) →
      tourLength D (moveTwo X i j) = tourLength D X - gainTwo D X.length X i j := by
  obtain ⟨a, l, x, mid, y, r, rfl, rfl, hm⟩ := split_list X i j hij hj
  have hj' : j = l.length + mid.length + 2 := by omega
  subst hj'
  rw [moveTwo_eq]
  constructor
  · refine List.Perm.cons a (List.Perm.append_left l ?_)
    have h1 : (x :: (mid ++ y :: r)).Perm (x :: y :: (mid ++ r)) := (List.perm_middle).cons x
    have h2 : (y :: (mid.reverse ++ x :: r)).Perm (y :: x :: (mid.reverse ++ r)) := (List.perm_middle).cons y
    refine h2.trans ((List.Perm.swap _ _ _).trans (List.Perm.trans ?_ h1.symm))
    exact ((mid.reverse_perm.append_right r).cons y).cons x
  · intro D hD
    rw [gainTwo_eq, tourLength_cons, tourLength_cons, way_exchange hD]

theorem gainSteep_eq (D : ℕ → ℕ → R) (n : ℕ) (X : List ℕ) (i j : ℕ) (hij : i + 2 ≤ j) (hj : j < n) :
    gainSteep D n X i j = gainTwo D n X i j := by
  rw [gainSteep, gainTwo]
  rw [if_pos (by omega), Nat.mod_eq_of_lt (show i + 1 < n by omega)]
  by_cases h : j + 1 < n
  · rw [if_pos h, Nat.mod_eq_of_lt h]
  · have : j + 1 = n := by omega
    rw [if_neg h, this, Nat.mod_self]

theorem map_getD (X : List ℕ) (s k : ℕ) (h : s + k ≤ X.length) :
    (List.range' s k).map (fun a => X.getD a 0) = (X.drop s).take k := by
  apply List.ext_getElem
  · rw [List.length_map, List.length_range', List.length_take, List.length_drop]; omega
  · intro m h1 h2
    rw [List.length_map, List.length_range'] at h1
    rw [List.getElem_map, List.getElem_range', List.getElem_take, List.getElem_drop, List.getD_eq_getElem?_getD,
      List.getElem?_eq_getElem (by omega)]
    simp

theorem moveSteep_eq (X : List ℕ) (i j : ℕ) (hij : i + 2 ≤ j) (hj : j < X.length) :
    moveSteep X.length X i j = moveTwo X i j := by
  rw [moveSteep, moveTwo, List.range_eq_range', map_getD _ _ _ (by omega), List.map_reverse, map_getD _ _ _ (by omega),
    map_getD _ _ _ (by omega)]
  congr 1
  · congr 1
    rw [List.drop_take]
    congr 2
    omega
  · rw [List.take_of_length_le]
    rw [List.length_drop]

/-! ## The main loop -/

theorem bestPair_spec (gain : ℕ → ℕ → R) (n : ℕ) :
    0 ≤ (bestPair gain n).1 ∧
    ((bestPair gain n).1 = 0 ∨ ((bestPair gain n).2.1 + 2 ≤ (bestPair gain n).2.2 ∧ (bestPair gain n).2.2 < n ∧
      (bestPair gain n).1 = gain (bestPair gain n).2.1 (bestPair gain n).2.2)) ∧
    ∀ i j, i + 2 ≤ j → j < n → gain i j ≤ (bestPair gain n).1 := by
  set P : R × ℕ × ℕ → Prop := fun s => 0 ≤ s.1 ∧ (s.1 = 0 ∨ (s.2.1 + 2 ≤ s.2.2 ∧ s.2.2 < n ∧ s.1 = gain s.2.1 s.2.2))
    with hP
  have inner : ∀ (i : ℕ) (js : List ℕ) (s : R × ℕ × ℕ), P s → (∀ j ∈ js, i + 2 ≤ j ∧ j < n) →
      P (js.foldl (fun s j => if s.1 < gain i j then (gain i j, i, j) else s) s) ∧
      s.1 ≤ (js.foldl (fun s j => if s.1 < gain i j then (gain i j, i, j) else s) s).1 ∧
      ∀ j ∈ js, gain i j ≤ (js.foldl (fun s j => if s.1 < gain i j then (gain i j, i, j) else s) s).1 := by
    intro i js
    induction js with
    | nil => intro s hs _; exact ⟨hs, le_rfl, by simp⟩
    | cons j js ih =>
      intro s hs hjs
      rw [List.foldl_cons]
      have hs' : P (if s.1 < gain i j then (gain i j, i, j) else s) ∧ s.1 ≤ (if s.1 < gain i j then (gain i j, i, j) else s).1 ∧
          gain i j ≤ (if s.1 < gain i j then (gain i j, i, j) else s).1 := by
        by_cases h : s.1 < gain i j
        · rw [if_pos h]
          exact ⟨⟨hs.1.trans h.le, Or.inr ⟨(hjs j (by simp)).1, (hjs j (by simp)).2, rfl⟩⟩, h.le, le_rfl⟩
        · rw [if_neg h]
          exact ⟨hs, le_rfl, not_lt.1 h⟩
      obtain ⟨h1, h2, h3⟩ := ih _ hs'.1 (fun j hj => hjs j (by simp [hj]))
      refine ⟨h1, hs'.2.1.trans h2, ?_⟩
      intro k hk
      rcases List.mem_cons.1 hk with rfl | hk
      · exact hs'.2.2.trans h2
      · exact h3 k hk
  have outer : ∀ (is : List ℕ) (s : R × ℕ × ℕ), P s →
      P (is.foldl (fun s i => (List.range' (i + 2) (n - (i + 2))).foldl
        (fun s j => if s.1 < gain i j then (gain i j, i, j) else s) s) s) ∧
      s.1 ≤ (is.foldl (fun s i => (List.range' (i + 2) (n - (i + 2))).foldl
        (fun s j => if s.1 < gain i j then (gain i j, i, j) else s) s) s).1 ∧
      ∀ i ∈ is, ∀ j, i + 2 ≤ j → j < n → gain i j ≤ (is.foldl (fun s i => (List.range' (i + 2) (n - (i + 2))).foldl
        (fun s j => if s.1 < gain i j then (gain i j, i, j) else s) s) s).1 := by
    intro is
    induction is with
    | nil => intro s hs; exact ⟨hs, le_rfl, by simp⟩
    | cons i is ih =>
      intro s hs
      rw [List.foldl_cons]
      obtain ⟨h1, h2, h3⟩ := inner i (List.range' (i + 2) (n - (i + 2))) s hs (fun j hj => by
        rw [List.mem_range'_1] at hj; omega)
      obtain ⟨h4, h5, h6⟩ := ih _ h1
      refine ⟨h4, h2.trans h5, ?_⟩
      intro k hk j hkj hj
      rcases List.mem_cons.1 hk with rfl | hk
      · exact (h3 j (by rw [List.mem_range'_1]; omega)).trans h5
      · exact h6 k hk j hkj hj
  obtain ⟨h1, h2, h3⟩ := outer (List.range n) (0, 0, 0) ⟨le_rfl, Or.inl rfl⟩
  exact ⟨h1.1, h1.2, fun i j hij hj => h3 i (List.mem_range.2 (by omega)) j hij hj⟩

/-- What the loop needs to know of `gain` and `move`. -/
structure Exchange (D : ℕ → ℕ → R) (n : ℕ) (gain : List ℕ → ℕ → ℕ → R) (move : List ℕ → ℕ → ℕ → List ℕ) : Prop where
  perm : ∀ X : List ℕ, X.length = n → ∀ i j, i + 2 ≤ j → j < n → (move X i j).Perm X
  len : ∀ X : List ℕ, X.length = n → ∀ i j, i + 2 ≤ j → j < n → tourLength D (move X i j) = tourLength D X - gain X i j

theorem exchange_two {D : ℕ → ℕ → R} (hD : ∀ i j, D i j = D j i) (n : ℕ) : Exchange D n (gainTwo D n) moveTwo :=
  ⟨fun X hX i j hij hj => (moveTwo_spec (R := R) X i j hij (hX ▸ hj)).1,
    fun X hX i j hij hj => by rw [← hX]; exact (moveTwo_spec X i j hij (hX ▸ hj)).2 D hD⟩

theorem exchange_steep {D : ℕ → ℕ → R} (hD : ∀ i j, D i j = D j i) (n : ℕ) :
    Exchange D n (gainSteep D n) (moveSteep n) := by
  refine ⟨fun X hX i j hij hj => ?_, fun X hX i j hij hj => ?_⟩
  · subst hX
    rw [moveSteep_eq _ _ _ hij hj]
    exact (moveTwo_spec (R := R) X i j hij hj).1
  · subst hX
    rw [moveSteep_eq _ _ _ hij hj, gainSteep_eq D _ _ _ _ hij hj]
    exact (moveTwo_spec X i j hij hj).2 D hD

variable [IsOrderedAddMonoid R]

/-- The loop ends, with a tour that no exchange shortens by more than `eps`. -/
theorem optLoop_spec {D : ℕ → ℕ → R} {n : ℕ} {gain : List ℕ → ℕ → ℕ → R} {move : List ℕ → ℕ → ℕ → List ℕ}
    (hx : Exchange D n gain move) {eps : R} (heps : 0 ≤ eps) (best : R) (X : List ℕ) (hX : IsTour n X) :
    ∃ X', optLoop gain move n eps best X = some (best - (tourLength D X - tourLength D X'), X') ∧ IsTour n X' ∧
      tourLength D X' ≤ tourLength D X ∧ ∀ i j, i + 2 ≤ j → j < n → gain X' i j ≤ eps := by
  induction hN : ((List.range n).permutations.filter (fun t => tourLength D t < tourLength D X)).length
    using Nat.strong_induction_on generalizing best X with
  | _ N ih =>
    rw [optLoop.eq_def]
    obtain ⟨h1, h2, h3⟩ := bestPair_spec (gain X) n
    by_cases hg : eps < (bestPair (gain X) n).1
    · rw [if_pos hg]
      have hpos := lt_of_le_of_lt heps hg
      rcases h2 with h2 | ⟨h2, h4, h5⟩
      · rw [h2] at hpos; exact absurd hpos (lt_irrefl _)
      · have hlen := tour_length hX
        have hp := hx.perm X hlen _ _ h2 h4
        have hl := hx.len X hlen _ _ h2 h4
        rw [← h5] at hl
        set X1 := move X (bestPair (gain X) n).2.1 (bestPair (gain X) n).2.2
        have hX1 : IsTour n X1 := isTour_iff.2 (hp.trans (isTour_iff.1 hX))
        have hlt : tourLength D X1 < tourLength D X := by rw [hl]; exact sub_lt_self _ hpos
        obtain ⟨X', h6, h7, h8, h9⟩ := ih _ (by
          rw [← hN, ← List.countP_eq_length_filter, ← List.countP_eq_length_filter]
          have hmem : X1 ∈ (List.range n).permutations := List.mem_permutations.2 (isTour_iff.1 hX1)
          obtain ⟨s, t, hst⟩ := List.append_of_mem hmem
          rw [hst, List.countP_append, List.countP_append, List.countP_cons, List.countP_cons]
          have hmono : ∀ u : List (List ℕ), u.countP (fun t => decide (tourLength D t < tourLength D X1)) ≤
              u.countP (fun t => decide (tourLength D t < tourLength D X)) := by
            intro u
            apply List.countP_mono_left
            intro t _ ht
            simp only [decide_eq_true_eq] at *
            exact ht.trans hlt
          have e1 := hmono s
          have e2 := hmono t
          simp only [lt_self_iff_false, decide_false, Bool.false_eq_true, if_false, hlt, decide_true, if_true]
          omega) (best - (bestPair (gain X) n).1) X1 hX1 rfl
        refine ⟨X', ?_, h7, h8.trans hlt.le, h9⟩
        rw [h6]
        congr 2
        rw [hl]; abel
    · rw [if_neg hg]
      exact ⟨X, by rw [sub_self, sub_zero], hX, le_rfl, fun i j hij hj => (h3 i j hij hj).trans (not_lt.1 hg)⟩

end Rosemary.Tsp
