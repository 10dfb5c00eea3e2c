import Verif.Lemmas.GeneticTsp
import Verif.Props.Tsp
import Mathlib.Data.Rat.Defs
import Mathlib.Algebra.Order.Ring.Rat
import Mathlib.Tactic.Ring
import Mathlib.Tactic.Tauto

/-!
# Properties C127 to C129: the genetic algorithm for the travelling salesman
-/

namespace Rosemary.Props

open Rosemary.Spec Rosemary.Tsp Rosemary.GeneticTsp

section

variable {R : Type} [AddCommGroup R] [LinearOrder R] [IsOrderedAddMonoid R]

/-- C127: `two_opt` of a tour ends, the result is a tour with its length, not longer than the given tour.  If the tour
goes from `a` to `b` and from `e` to `c`, and `c` is nearer to `b` than `a` is, and one of the twenty cities
nearest to `b`, then the exchange of the two edges gains at most `eps`.  What is missing: all other exchanges, for which
this is false, see below. -/
theorem C127_two_opt_partial (D : ℕ → ℕ → R) (hD : ∀ i j, D i j = D j i) {eps : R} (heps : 0 ≤ eps) {n : ℕ} (hn : 0 < n)
    (P : List ℕ) (hP : IsTour n P) :
    ∃ Q, GeneticTsp.twoOpt D eps n P = some (.ok (tourLength D Q, Q)) ∧ IsTour n Q ∧ tourLength D Q ≤ tourLength D P ∧
      ∀ i k a b e c, i < n → k < n → Q[i]? = some a → Q[(i + 1) % n]? = some b → Q[k]? = some e →
        Q[(k + 1) % n]? = some c → c ≠ b → D b c < D a b →
        ((Finset.range n).filter (fun x => x ≠ b ∧ (D b x < D b c ∨ (D b x = D b c ∧ x < c)))).card < 20 →
        D a b + D e c ≤ D b c + D a e + eps := by
  obtain ⟨Q, h1, h2, h3, h4⟩ := twoOptLoop_spec hD heps hn P hP 0 (by omega)
  refine ⟨Q, h1, h2, h3, ?_⟩
  intro i k a b e c hi hk ha hb he hc hcb hlt hr
  have hcn : c < n := (h2.2 c).1 (List.mem_of_getElem? hc)
  have hgD : ∀ t x, Q[t]? = some x → Q.getD t 0 = x := by
    intro t x h; rw [List.getD_eq_getElem?_getD, h]; rfl
  have := h4 i hi (D b c, c) (by rw [hgD _ _ hb]; exact nearest_complete hcn hcb hr) (by
    rw [hgD _ _ ha, hgD _ _ hb]; exact hlt)
  have hidx : Q.idxOf c = (k + 1) % n := by
    obtain ⟨hl, he'⟩ := List.getElem?_eq_some_iff.1 hc
    rw [← he']
    exact h2.1.idxOf_getElem _ hl
  have hpred : ((k + 1) % n + n - 1) % n = k := by
    by_cases hkn : k + 1 = n
    · rw [hkn, Nat.mod_self, zero_add, Nat.mod_eq_of_lt (by omega)]; omega
    · rw [Nat.mod_eq_of_lt (show k + 1 < n by omega), show k + 1 + n - 1 = k + n by omega, Nat.add_mod_right,
        Nat.mod_eq_of_lt hk]
  rw [gainAt] at this
  dsimp only at this
  rw [hidx, hpred, hgD _ _ ha, hgD _ _ hb, hgD _ _ he, sub_sub, sub_le_iff_le_add] at this
  rw [add_comm eps] at this
  exact this

/-- C127 for at most 21 cities: no exchange whose new edge `b`, `c` is shorter than one of the two old edges gains more
than `eps`. -/
theorem C127_two_opt_small (D : ℕ → ℕ → R) (hD : ∀ i j, D i j = D j i) {eps : R} (heps : 0 ≤ eps) {n : ℕ} (hn : 0 < n)
    (hn' : n ≤ 21) (P : List ℕ) (hP : IsTour n P) :
    ∃ Q, GeneticTsp.twoOpt D eps n P = some (.ok (tourLength D Q, Q)) ∧ IsTour n Q ∧
      ∀ i k a b e c, i < n → k < n → Q[i]? = some a → Q[(i + 1) % n]? = some b → Q[k]? = some e →
        Q[(k + 1) % n]? = some c → c ≠ b → D b c < D a b ∨ D b c < D e c →
        D a b + D e c ≤ D b c + D a e + eps := by
  obtain ⟨Q, h1, h2, -, h4⟩ := C127_two_opt_partial D hD heps hn P hP
  refine ⟨Q, h1, h2, ?_⟩
  have hcard : ∀ b c, b < n → c < n → c ≠ b →
      ((Finset.range n).filter (fun x => x ≠ b ∧ (D b x < D b c ∨ (D b x = D b c ∧ x < c)))).card < 20 := by
    intro b c hb hc hcb
    have hsub : ((Finset.range n).filter (fun x => x ≠ b ∧ (D b x < D b c ∨ (D b x = D b c ∧ x < c)))) ⊆
        ((Finset.range n).erase b).erase c := by
      intro x hx
      rw [Finset.mem_filter] at hx
      rw [Finset.mem_erase, Finset.mem_erase]
      refine ⟨?_, hx.2.1, hx.1⟩
      rintro rfl
      rcases hx.2.2 with h | h
      · exact lt_irrefl _ h
      · exact lt_irrefl _ h.2
    have := Finset.card_le_card hsub
    rw [Finset.card_erase_of_mem (Finset.mem_erase.2 ⟨hcb, Finset.mem_range.2 hc⟩),
      Finset.card_erase_of_mem (Finset.mem_range.2 hb), Finset.card_range] at this
    omega
  intro i k a b e c hi hk ha hb he hc hcb hor
  have hbn : b < n := (h2.2 b).1 (List.mem_of_getElem? hb)
  have hcn : c < n := (h2.2 c).1 (List.mem_of_getElem? hc)
  rcases hor with h | h
  · exact h4 i k a b e c hi hk ha hb he hc hcb h (hcard b c hbn hcn hcb)
  · have := h4 k i e c a b hk hi he hc ha hb hcb.symm (by rw [hD c b]; exact h) (hcard c b hcn hbn hcb.symm)
    rw [add_comm (D e c), hD c b, hD e a] at this
    exact this

/-- No exchange is found. -/
def settled (D : ℕ → ℕ → R) (eps : R) (n : ℕ) (P : List ℕ) : Bool :=
  (List.range n).all (fun i =>
    match point n P i, point n P ((i + 1) % n) with
    | .ok xi, .ok xj =>
      match scan D eps n P i xi (D xi xj) (nearest D n xj) with
      | some (.ok none) => true
      | _ => false
    | _, _ => false)

omit [IsOrderedAddMonoid R] in
theorem twoOpt_settled {D : ℕ → ℕ → R} {eps : R} {n : ℕ} {P : List ℕ} (h : settled D eps n P = true) {c : R}
    (hc : GeneticTsp.cost D n P = .ok c) : GeneticTsp.twoOpt D eps n P = some (.ok (c, P)) := by
  have key : ∀ d i, n ≤ i + d → twoOptLoop D eps n P i = some (.ok (c, P)) := by
    intro d
    induction d with
    | zero =>
      intro i hi
      rw [twoOptLoop, if_neg (by omega), hc]
    | succ d ih =>
      intro i hi
      by_cases hn : i < n
      · rw [twoOptLoop, if_pos hn]
        have := List.all_eq_true.1 h i (List.mem_range.2 hn)
        split at this
        · rename_i xi xj e1 e2
          rw [e1, e2]
          dsimp only
          split at this
          · rename_i e3
            rw [e3]
            exact ih (i + 1) (by omega)
          · simp at this
        · simp at this
      · rw [twoOptLoop, if_neg hn, hc]
  exact key n 0 (by omega)

end

/-- The distances of the points (0, 0), (0, 12), (35, 0), (0, -12). -/
def kite : ℕ → ℕ → ℚ := fun i j =>
  (([[0, 12, 35, 12], [12, 0, 37, 24], [35, 37, 0, 37], [12, 24, 37, 0]] : List (List ℚ)).getD i []).getD j 0

/-- These are Euclidean distances. -/
theorem kite_euclidean : ∀ i < 4, ∀ j < 4, 0 ≤ kite i j ∧ kite i j = kite j i ∧ kite i j ^ 2 =
    (([0, 0, 35, 0] : List ℚ).getD i 0 - ([0, 0, 35, 0] : List ℚ).getD j 0) ^ 2 +
    (([0, 12, 0, -12] : List ℚ).getD i 0 - ([0, 12, 0, -12] : List ℚ).getD j 0) ^ 2 := by decide +kernel

/-- C127, the missing part, is false: for these four points `two_opt` returns a tour of length 108 unchanged, which
becomes 10 shorter by the exchange of two of its edges. -/
theorem C127_two_opt_violation : GeneticTsp.twoOpt kite (1 / 1000000) 4 [0, 2, 1, 3] = some (.ok (108, [0, 2, 1, 3])) ∧
    ¬ LocallyOptimal kite (1 / 1000000) [0, 2, 1, 3] := by
  refine ⟨twoOpt_settled (by decide +kernel) (by decide +kernel), fun h => ?_⟩
  have := h [0] [2, 1] [3] rfl
  revert this
  decide +kernel

/-- C127 covers reversals over the end of the list. -/
example : rev [5, 6, 7, 8, 9] 3 1 = some [9, 8, 7, 6, 5] := by
  rw [rev, if_neg (by decide), if_pos (by decide), show ([5, 6, 7, 8, 9] : List ℕ).length = 5 from rfl,
    circle_spec 5 1 1 3 (by decide) (by decide)]
  rfl

/-! ## C128 -/

section

variable {R : Type} [AddCommGroup R] [LinearOrder R] [IsOrderedAddMonoid R]

/-- C128: with at least 20 points, the children of two tours are tours: each starts with `h` consecutive cities of one
parent (in the circle, from position `j`), followed by the other cities in the order of the other parent, improved by
`two_opt`. -/
theorem C128_mgkrec (D : ℕ → ℕ → R) (hD : ∀ i j, D i j = D j i) {eps : R} (heps : 0 ≤ eps) {n : ℕ} (hn : 20 ≤ n)
    (h j1 j2 : ℕ) (hh : h ≤ n / 2) (A B : List ℕ) (hA : IsTour n A) (hB : IsTour n B) :
    ∃ a b, mgkrec D eps n (h, j1, j2) A B = some (.ok ((tourLength D a, a), (tourLength D b, b))) ∧
      IsTour n a ∧ IsTour n b ∧
      GeneticTsp.twoOpt D eps n ((B.rotate j1).take h ++ A.filter (· ∉ (B.rotate j1).take h)) = some (.ok (tourLength D a, a)) ∧
      GeneticTsp.twoOpt D eps n ((A.rotate j2).take h ++ B.filter (· ∉ (A.rotate j2).take h)) = some (.ok (tourLength D b, b)) :=
  mgkrec_spec hD heps hn (draw := (h, j1, j2)) (by dsimp only; omega) hA hB

omit [IsOrderedAddMonoid R] in
/-- C128: with fewer than 20 points `mgkrec` raises ValueError. -/
theorem C128_mgkrec_error (D : ℕ → ℕ → R) (eps : R) (n : ℕ) (hn : n < 20) (draw : ℕ × ℕ × ℕ) (A B : List ℕ) :
    mgkrec D eps n draw A B = some (.error .valueError) := by
  rw [mgkrec, if_pos (by omega)]

example : crossover 6 3 4 [0, 1, 2, 3, 4, 5] [2, 5, 1, 4, 0, 3] = .ok [4, 5, 0, 2, 1, 3] := by decide +kernel

/-! ## C129 -/

/-- C129: `solve` returns the length of some tour, not larger than that of any of the initial tours (after `two_opt`).
If none of the children was better, the second result is a tour of this length.  If some child was better, the second
result is a list of a cost and a path instead, and this cost is not smaller than the first result: the claim that the
second result is the tour is false in this case. -/
theorem C129_solve_partial (D : ℕ → ℕ → R) (hD : ∀ i j, D i j = D j i) {eps : R} (heps : 0 ≤ eps) {n popsize cmax : ℕ}
    (hn : 0 < n) (hpos : 0 < popsize) (h20 : 2 ≤ popsize → 20 ≤ n) (shuffled : ℕ → List ℕ)
    (hs : ∀ i < popsize, IsTour n (shuffled i)) (draws : ℕ → ℕ → ℕ × ℕ × ℕ) (hd : ∀ c i, (draws c i).1 ≤ n / 2) :
    ∃ (best : R) (X : XBest R), solve D eps n shuffled draws popsize cmax = some (.ok ((best : WithTop R), X)) ∧
      (∃ t, IsTour n t ∧ tourLength D t = best) ∧
      (∀ i < popsize, ∃ c p, GeneticTsp.twoOpt D eps n (shuffled i) = some (.ok (c, p)) ∧ best ≤ c) ∧
      ((∃ t, X = .path t ∧ IsTour n t ∧ tourLength D t = best ∧
          ∃ i < popsize, GeneticTsp.twoOpt D eps n (shuffled i) = some (.ok (best, t))) ∨
        ((∀ i < popsize, ∃ c p, GeneticTsp.twoOpt D eps n (shuffled i) = some (.ok (c, p)) ∧ best < c) ∧
          ∃ c p, X = .costAndPath c p ∧ (best : WithTop R) ≤ c)) := by
  obtain ⟨pop, h1, h2, h3, h4, h5⟩ := select_spec hD heps hn (shuffled := shuffled) (List.range popsize)
    (fun i hi => hs i (List.mem_range.1 hi))
  rw [List.length_range] at h2
  have hall : ∀ m ∈ pop ++ List.replicate popsize ((⊤ : WithTop R), ([] : List ℕ)), m.1 = ⊤ ∨ FinTour D n m := by
    intro m hm
    rcases List.mem_append.1 hm with hm | hm
    · exact Or.inr (h3 m hm)
    · rw [List.eq_of_mem_replicate hm]; exact Or.inl rfl
  have hcount : popsize ≤ (pop ++ List.replicate popsize ((⊤ : WithTop R), ([] : List ℕ))).countP
      (fun m => decide (m.1 ≠ ⊤)) := by
    rw [List.countP_append]
    have : pop.countP (fun m => decide (m.1 ≠ ⊤)) = pop.length := by
      rw [List.countP_eq_length]
      intro m hm
      rw [decide_eq_true_eq, (h3 m hm).2]
      exact WithTop.coe_ne_top
    omega
  obtain ⟨s1, s2⟩ := sort_pop (D := D) (n := n) (popsize := popsize) (by simp; omega) hall hcount
  set S := pySort (pop ++ List.replicate popsize ((⊤ : WithTop R), ([] : List ℕ))) leMember with hS
  have hl := s1.len
  have hl0 : 0 < S.length := by omega
  have hfin := s1.fin 0 hl0 hpos
  obtain ⟨b, X, g1, g2⟩ := generations_spec hD heps hpos h20 (fun c i => (hd c i).trans (Nat.div_le_self _ _))
    (List.range cmax) S s1 S[0].1 (.path S[0].2)
  have hsolve : solve D eps n shuffled draws popsize cmax = some (.ok (b, X)) := by
    rw [solve, h1]
    dsimp only
    rw [← hS, List.getElem?_eq_getElem hl0]
    exact g1
  have hmin : ∀ i < popsize, ∃ c p, GeneticTsp.twoOpt D eps n (shuffled i) = some (.ok (c, p)) ∧ S[0].1 ≤ (c : WithTop R) := by
    intro i hi
    obtain ⟨c, p, h6, h7⟩ := h5 i (List.mem_range.2 hi)
    exact ⟨c, p, h6, s2 hl0 _ (List.mem_append_left _ h7)⟩
  rcases g2 with ⟨rfl, rfl⟩ | ⟨g2, ⟨t, g3, g4⟩, c', p', g5, g6⟩
  · refine ⟨tourLength D S[0].2, _, by rw [hsolve, hfin.2], ⟨_, hfin.1, rfl⟩, ?_, Or.inl ⟨_, rfl, hfin.1, rfl, ?_⟩⟩
    · intro i hi
      obtain ⟨c, p, h6, h7⟩ := hmin i hi
      rw [hfin.2] at h7
      exact ⟨c, p, h6, WithTop.coe_le_coe.1 h7⟩
    · have hm := mem_pySort.1 (List.getElem_mem hl0)
      rcases List.mem_append.1 hm with hm | hm
      · obtain ⟨i, hi, c, h6, h7⟩ := h4 _ hm
        refine ⟨i, List.mem_range.1 hi, ?_⟩
        rw [hfin.2] at h7
        rw [WithTop.coe_inj.1 h7]
        exact h6
      · have := List.eq_of_mem_replicate hm
        have h8 := hfin.2
        rw [this] at h8
        exact absurd h8.symm WithTop.coe_ne_top
  · subst g4
    refine ⟨tourLength D t, X, hsolve, ⟨t, g3, rfl⟩, ?_, Or.inr ⟨?_, c', p', g5, g6⟩⟩
    · intro i hi
      obtain ⟨c, p, h6, h7⟩ := hmin i hi
      exact ⟨c, p, h6, (WithTop.coe_lt_coe.1 (lt_of_lt_of_le g2 h7)).le⟩
    · intro i hi
      obtain ⟨c, p, h6, h7⟩ := hmin i hi
      exact ⟨c, p, h6, WithTop.coe_lt_coe.1 (lt_of_lt_of_le g2 h7)⟩

omit [IsOrderedAddMonoid R] in
/-- C129: an empty population raises IndexError. -/
theorem C129_solve_empty (D : ℕ → ℕ → R) (eps : R) (n cmax : ℕ) (shuffled : ℕ → List ℕ) (draws : ℕ → ℕ → ℕ × ℕ × ℕ) :
    solve D eps n shuffled draws 0 cmax = some (.error .indexError) := rfl

/-- C129: with fewer than 20 points and at least two tours the first generation raises ValueError. -/
theorem C129_solve_few_points (D : ℕ → ℕ → R) (hD : ∀ i j, D i j = D j i) {eps : R} (heps : 0 ≤ eps) {n popsize cmax : ℕ}
    (hn : 0 < n) (hn' : n < 20) (hpos : 2 ≤ popsize) (hc : 0 < cmax) (shuffled : ℕ → List ℕ)
    (hs : ∀ i < popsize, IsTour n (shuffled i)) (draws : ℕ → ℕ → ℕ × ℕ × ℕ) :
    solve D eps n shuffled draws popsize cmax = some (.error .valueError) := by
  obtain ⟨pop, h1, h2, -⟩ := select_spec hD heps hn (shuffled := shuffled) (List.range popsize)
    (fun i hi => hs i (List.mem_range.1 hi))
  rw [List.length_range] at h2
  have hl : (pySort (pop ++ List.replicate popsize ((⊤ : WithTop R), ([] : List ℕ))) leMember).length = 2 * popsize := by
    rw [(pySort_perm _ _).length_eq]; simp; omega
  rw [solve, h1]
  dsimp only
  rw [List.getElem?_eq_getElem (by omega)]
  dsimp only
  obtain ⟨c, rfl⟩ : ∃ c, cmax = c + 1 := ⟨cmax - 1, by omega⟩
  obtain ⟨k, hk⟩ : ∃ k, popsize / 2 = k + 1 := ⟨popsize / 2 - 1, by omega⟩
  rw [List.range_succ_eq_map, generations, hk, List.range_succ_eq_map, breed, List.getElem?_eq_getElem (by omega),
    List.getElem?_eq_getElem (by omega)]
  dsimp only
  rw [C128_mgkrec_error D eps n hn']

end

/-- The first coordinates of 20 points; the last point has the second coordinate 60, the others 0. -/
def combX : List ℤ := [0, 11, -11, 25, -25, 32, -32, 45, -45, 63, -63, 80, -80, 91, -91, 144, -144, 175, -175, 0]

/-- The square of the distance. -/
def combSq (i j : ℕ) : ℤ :=
  (combX.getD i 0 - combX.getD j 0) ^ 2 + (if (i = 19 ∧ j ≠ 19) ∨ (i ≠ 19 ∧ j = 19) then 3600 else 0)

/-- The distances, all integers. -/
def comb : ℕ → ℕ → ℚ := fun i j => ((combSq i j).toNat.sqrt : ℚ)

theorem comb_symm (i j : ℕ) : comb i j = comb j i := by
  have : combSq i j = combSq j i := by
    unfold combSq
    congr 1
    · ring
    · congr 1
      simp only [eq_iff_iff]
      tauto
  rw [comb, this, comb]

theorem comb_euclidean : ∀ i < 20, ∀ j < 20, comb i j ^ 2 = combSq i j := by decide +kernel

/-- Two tours. -/
def combA : List ℕ := [13, 11, 9, 7, 5, 3, 1, 0, 2, 4, 6, 8, 10, 12, 14, 18, 16, 19, 17, 15]
def combB : List ℕ := [3, 1, 0, 2, 4, 6, 8, 10, 12, 16, 18, 14, 19, 17, 15, 13, 11, 9, 7, 5]

theorem combA_ok : GeneticTsp.twoOpt comb (1 / 1000000) 20 combA = some (.ok (722, combA)) :=
  twoOpt_settled (by decide +kernel) (by decide +kernel)

theorem combB_ok : GeneticTsp.twoOpt comb (1 / 1000000) 20 combB = some (.ok (728, combB)) :=
  twoOpt_settled (by decide +kernel) (by decide +kernel)

/-- The children. -/
def combC : List ℕ := [19, 17, 15, 13, 11, 9, 7, 5, 3, 1, 0, 2, 4, 6, 8, 10, 12, 14, 18, 16]
def combE : List ℕ := [3, 1, 0, 2, 4, 6, 8, 10, 12, 14, 16, 18, 19, 17, 15, 13, 11, 9, 7, 5]

theorem combAB_children : mgkrec comb (1 / 1000000) 20 (10, 12, 5) combA combB = some (.ok ((722, combC), (720, combE))) := by
  have h1 : crossover 20 10 12 combB combA = .ok combC := by decide +kernel
  have h2 : crossover 20 10 5 combA combB = .ok combE := by decide +kernel
  have h3 : GeneticTsp.twoOpt comb (1 / 1000000) 20 combC = some (.ok (722, combC)) :=
    twoOpt_settled (by decide +kernel) (by decide +kernel)
  have h4 : GeneticTsp.twoOpt comb (1 / 1000000) 20 combE = some (.ok (720, combE)) :=
    twoOpt_settled (by decide +kernel) (by decide +kernel)
  rw [mgkrec, if_neg (by decide)]
  dsimp only
  rw [h1]
  dsimp only
  rw [h3]
  dsimp only
  rw [h2]
  dsimp only
  rw [h4]

/-- C129, the missing part, is false: for these points, and with the draws `h = 10`, `j = 12`, `j = 5`, `solve(2, 1)` returns
the cost 720 together with the list of the cost 722 and a path of this length. -/
theorem C129_solve_violation :
    solve comb (1 / 1000000) 20 (fun i => if i = 0 then combA else combB) (fun _ _ => (10, 12, 5)) 2 1 =
      some (.ok (((720 : ℚ) : WithTop ℚ), .costAndPath ((722 : ℚ) : WithTop ℚ) combA)) := by
  have hs : select comb (1 / 1000000) 20 (fun i => if i = 0 then combA else combB) (List.range 2) =
      some (.ok [(((722 : ℚ) : WithTop ℚ), combA), (((728 : ℚ) : WithTop ℚ), combB)]) := by
    rw [show List.range 2 = [0, 1] from rfl, select, if_pos rfl, combA_ok]
    dsimp only
    rw [select, if_neg (by decide), combB_ok]
    rfl
  have h1 : pySort ([(((722 : ℚ) : WithTop ℚ), combA), (((728 : ℚ) : WithTop ℚ), combB)] ++ List.replicate 2 (⊤, [])) leMember =
      [(((722 : ℚ) : WithTop ℚ), combA), (((728 : ℚ) : WithTop ℚ), combB), (⊤, []), (⊤, [])] := by decide +kernel
  have h2 : pySort [(((722 : ℚ) : WithTop ℚ), combA), (((728 : ℚ) : WithTop ℚ), combB), (((722 : ℚ) : WithTop ℚ), combC),
      (((720 : ℚ) : WithTop ℚ), combE)] leMember =
      [(((720 : ℚ) : WithTop ℚ), combE), (((722 : ℚ) : WithTop ℚ), combA), (((722 : ℚ) : WithTop ℚ), combC),
        (((728 : ℚ) : WithTop ℚ), combB)] := by decide +kernel
  have hb : breed comb (1 / 1000000) 20 2 (fun _ => (10, 12, 5)) (List.range (2 / 2))
      [(((722 : ℚ) : WithTop ℚ), combA), (((728 : ℚ) : WithTop ℚ), combB), (⊤, []), (⊤, [])] =
      some (.ok [(((722 : ℚ) : WithTop ℚ), combA), (((728 : ℚ) : WithTop ℚ), combB), (((722 : ℚ) : WithTop ℚ), combC),
      (((720 : ℚ) : WithTop ℚ), combE)]) := by
    rw [show List.range (2 / 2) = [0] from rfl, breed]
    simp only [Nat.mul_zero, Nat.zero_add, List.getElem?_cons_zero, List.getElem?_cons_succ]
    rw [combAB_children]
    rfl
  rw [solve, hs]
  dsimp only
  rw [h1]
  simp only [List.getElem?_cons_zero]
  rw [show List.range 1 = [0] from rfl, generations, hb]
  dsimp only
  rw [h2]
  simp only [List.getElem?_cons_zero, List.getElem?_cons_succ, Nat.zero_add]
  rw [if_pos (by decide +kernel)]
  rfl

/-- The shuffles and draws of C129 exist. -/
example : IsTour 20 combA ∧ IsTour 20 combB := by
  constructor <;> exact isTour_iff.2 (by decide +kernel)

end Rosemary.Props
