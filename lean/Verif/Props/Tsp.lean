import Verif.Lemmas.TourBound
import Verif.Lemmas.TourInsertion
import Verif.Lemmas.Annealing
import Mathlib.Algebra.Order.Ring.Int

/-!
# Properties of the routines for round trips (C62)

Distances are elements of an ordered group, the diagonal of the matrix may hold `⊤`, which stands for `float('inf')`.
-/

namespace Rosemary.Props

open Rosemary.Tsp Rosemary.Spec

variable {R : Type} [AddCommGroup R] [LinearOrder R] [IsOrderedAddMonoid R]

/-- C62, `depth_first` with at least one point: the value is a lower bound of the lengths of all tours, and it is the length
of the tour returned unless every tour has infinite length, when the list is empty. -/
theorem C62_depth_first (D : ℕ → ℕ → WithTop R) {n : ℕ} (hn : 0 < n) : ∃ value path, depthFirst D n = .ok (value, path) ∧
    (∀ t, IsTour n t → value ≤ tourLength D t) ∧
    ((value = ⊤ ∧ path = []) ∨ (IsTour n path ∧ tourLength D path = value)) := by
  obtain ⟨⟨value, path⟩, h1, h2⟩ := depthFirst_spec D hn
  obtain ⟨h3, h4⟩ := improves_root hn h2
  refine ⟨value, path, h1, h3, ?_⟩
  rcases h4 with h4 | h4
  · exact Or.inl ⟨(Prod.ext_iff.1 h4).1, (Prod.ext_iff.1 h4).2⟩
  · exact Or.inr h4

/-- A result of one of the exact searches that is not infinite is a shortest tour. -/
theorem shortest_of_improves {D : ℕ → ℕ → WithTop R} {n : ℕ} (h2 : 2 ≤ n)
    (hD : ∀ i < n, ∀ j < n, i ≠ j → D i j ≠ ⊤) {b : WithTop R × List ℕ} (h : Improves D (Ext n []) (⊤, []) b) :
    IsTour n b.2 ∧ tourLength D b.2 = b.1 ∧ ∀ t, IsTour n t → b.1 ≤ tourLength D t := by
  obtain ⟨h3, h4⟩ := improves_root (by omega) h
  rcases h4 with h4 | h4
  · have := h3 _ (isTour_iff.2 (List.Perm.refl (List.range n)))
    rw [h4, top_le_iff] at this
    exact absurd this (tourLength_ne_top h2 hD)
  · exact ⟨h4.1, h4.2, h3⟩

/-- C62, `depth_first` with at least two points at finite distances returns a shortest tour and its length. -/
theorem C62_depth_first_finite (D : ℕ → ℕ → WithTop R) {n : ℕ} (h2 : 2 ≤ n)
    (hD : ∀ i < n, ∀ j < n, i ≠ j → D i j ≠ ⊤) : ∃ value path, depthFirst D n = .ok (value, path) ∧ IsTour n path ∧
      tourLength D path = value ∧ ∀ t, IsTour n t → value ≤ tourLength D t := by
  obtain ⟨b, h3, h4⟩ := depthFirst_spec D (show 0 < n by omega)
  exact ⟨b.1, b.2, h3, shortest_of_improves h2 hD h4⟩

/-- C62, `branch_and_bound` with at least two points at finite distances returns a shortest tour and its length; no `nan`
arises.  Not covered: a single point, where the claim fails, see below, and infinite distances between different points. -/
theorem C62_branch_and_bound_partial (D : ℕ → ℕ → WithTop R) {n : ℕ} (h2 : 2 ≤ n)
    (hD : ∀ i < n, ∀ j < n, i ≠ j → D i j ≠ ⊤) : ∃ value path, branchAndBound D n = some (.ok (value, path)) ∧
      IsTour n path ∧ tourLength D path = value ∧ ∀ t, IsTour n t → value ≤ tourLength D t := by
  obtain ⟨b, h3, h4⟩ := branchAndBound_spec (show 0 < n by omega) hD
  exact ⟨b.1, b.2, h3, shortest_of_improves h2 hD h4⟩

/-- C62 fails for a single point with the default matrix, whose diagonal is infinite: both searches return an empty list
instead of the tour `[0]`.  Without points both raise `IndexError`. -/
theorem C62_single_point_violation :
    depthFirst (fun _ _ => (⊤ : WithTop ℤ)) 1 = .ok (⊤, []) ∧
      branchAndBound (fun _ _ => (⊤ : WithTop ℤ)) 1 = some (.ok (⊤, [])) ∧
      depthFirst (fun _ _ => (⊤ : WithTop ℤ)) 0 = .error .indexError ∧
      branchAndBound (fun _ _ => (⊤ : WithTop ℤ)) 0 = some (.error .indexError) := by
  decide +kernel

/-- C62, `farthest_insertion` with at least two points ends, without an error, and returns a tour that starts at 0 with its
length. -/
theorem C62_farthest_insertion (D : ℕ → ℕ → R) {n : ℕ} (h2 : 2 ≤ n) : ∃ path,
    farthestInsertion D n = some (.ok (tourLength D path, path)) ∧ IsTour n path ∧ path.head? = some 0 := by
  obtain ⟨q, tw, h3, h4, h5⟩ := farthestInsertion_spec D (show 0 < n by omega)
  have hq : q ≠ [] := by rintro rfl; have := tour_length h4; simp at this; omega
  rw [if_neg hq] at h5
  exact ⟨0 :: q, by rw [h3, tourLength_cons, h5], h4, rfl⟩

/-- C62, `farthest_insertion` with `edges` returns the set of edges of the tour that it returns without. -/
theorem C62_farthest_edges (D : ℕ → ℕ → R) {n : ℕ} (hn : 0 < n) : ∃ path edges value,
    farthestEdges D n = .ok (edges, value) ∧ farthestInsertion D n = some (.ok (value, path)) ∧ IsTour n path ∧
      edges.Nodup ∧ ∀ e, e ∈ edges ↔ e ∈ path.zip (path.rotate 1) := by
  obtain ⟨q, edges, tw, h1, h2, h3, h4⟩ := farthestEdges_spec D hn
  refine ⟨0 :: q, edges, tw, h1, ?_, h2, ?_, ?_⟩
  · have hfst : (edges.map Prod.fst).Nodup := by
      rw [(h3.map _).nodup_iff, map_fst_arcs]; exact h2.1
    have h0 : (0, q.headD 0) ∈ edges := by
      rw [h3.mem_iff]
      cases q with
      | nil => simp [arcs]
      | cons b q => simp [arcs]
    rw [farthestInsertion, h1]
    dsimp only
    rw [nextNode_eq hfst h0]
    dsimp only
    rw [follow_spec h3 h2.1 q [] rfl]
  · apply List.Nodup.of_map Prod.fst
    rw [(h3.map _).nodup_iff, map_fst_arcs]; exact h2.1
  · intro e
    rw [h3.mem_iff, arcs_eq, List.rotate_cons_succ, List.rotate_zero]

/-- No reversal of a stretch shortens the tour `t` by more than `eps`. -/
def LocallyOptimal (D : ℕ → ℕ → R) (eps : R) (t : List ℕ) : Prop :=
  ∀ p q r, t = p ++ q ++ r → tourLength D t ≤ tourLength D (p ++ q.reverse ++ r) + eps

theorem tourLength_reverse {D : ℕ → ℕ → R} (hD : ∀ i j, D i j = D j i) (l : List ℕ) :
    tourLength D l.reverse = tourLength D l := by
  cases l with
  | nil => rfl
  | cons a l =>
    rw [List.reverse_cons, ← tourLength_rotate D _ l.reverse.length, List.rotate_append_length_eq, tourLength_cons]
    show tourLength D (a :: l.reverse) = _
    rw [tourLength_cons, ← way_reverse hD]

theorem locallyOptimal_of_gain {D : ℕ → ℕ → R} (hD : ∀ i j, D i j = D j i) {eps : R} (heps : 0 ≤ eps) {t : List ℕ}
    (h : ∀ i j, i + 2 ≤ j → j < t.length → gainTwo D t.length t i j ≤ eps) : LocallyOptimal D eps t := by
  have key : ∀ p q r, t = p ++ q ++ r → p ≠ [] → tourLength D t ≤ tourLength D (p ++ q.reverse ++ r) + eps := by
    intro p q r ht hp
    have hp' := List.length_pos_iff.2 hp
    by_cases hq : q.length ≤ 1
    · have : q.reverse = q := by
        rcases q with _ | ⟨a, _ | ⟨b, q⟩⟩
        · rfl
        · rfl
        · simp at hq
      rw [this, ← ht]
      exact le_add_of_nonneg_right heps
    · have hlen : t.length = p.length + q.length + r.length := by rw [ht]; simp; omega
      have hij : p.length - 1 + 2 ≤ p.length + q.length - 1 := by omega
      have hj : p.length + q.length - 1 < t.length := by omega
      have h1 := (moveTwo_spec (R := R) t _ _ hij hj).2 D hD
      have h2 := h _ _ hij hj
      have h3 : moveTwo t (p.length - 1) (p.length + q.length - 1) = p ++ q.reverse ++ r := by
        have e1 : p.length - 1 + 1 = p.length := by omega
        have e2 : p.length + q.length - 1 + 1 = (p ++ q).length := by rw [List.length_append]; omega
        have t1 : (p ++ q ++ r).take p.length = p := by rw [List.append_assoc, List.take_left']; rfl
        have t2 : (p ++ q ++ r).take (p ++ q).length = p ++ q := by rw [List.take_left']; rfl
        have t3 : (p ++ q ++ r).drop (p ++ q).length = r := by rw [List.drop_left']; rfl
        have t4 : (p ++ q).drop p.length = q := by rw [List.drop_left']; rfl
        rw [moveTwo, e1, e2, ht, t1, t2, t3, t4]
      rw [h3] at h1
      rw [h1]
      have : tourLength D t - gainTwo D t.length t (p.length - 1) (p.length + q.length - 1) + eps =
        tourLength D t + (eps - gainTwo D t.length t (p.length - 1) (p.length + q.length - 1)) := by abel
      rw [this]
      exact le_add_of_nonneg_right (sub_nonneg.2 h2)
  intro p q r ht
  by_cases hp : p = []
  · subst hp
    by_cases hq : q = []
    · subst hq
      rw [ht]
      exact le_add_of_nonneg_right heps
    · have := key q r [] (by rw [ht]; simp) hq
      rw [List.append_nil] at this
      refine this.trans (le_of_eq ?_)
      congr 1
      rw [List.nil_append, ← tourLength_reverse hD (q.reverse ++ r), List.reverse_append, List.reverse_reverse,
        ← tourLength_rotate D (r.reverse ++ q) r.reverse.length, List.rotate_append_length_eq]
  · exact key p q r ht hp

/-- C62, `two_opt` with at least one point and symmetric distances ends and returns a tour with its length, not longer than
the initial tour, and no reversal of a stretch shortens it by more than the threshold.  Not covered: matrices that are not
symmetric, for which the claim fails, see below. -/
theorem C62_two_opt_partial (D : ℕ → ℕ → R) (hD : ∀ i j, D i j = D j i) {eps : R} (heps : 0 ≤ eps) {n : ℕ} (hn : 0 < n) :
    ∃ path, twoOpt D eps n = some (.ok (tourLength D path, path)) ∧ IsTour n path ∧
      tourLength D path ≤ tourLength D (List.range n) ∧ LocallyOptimal D eps path := by
  have hr : IsTour n (List.range n) := isTour_iff.2 (List.Perm.refl _)
  obtain ⟨X, h1, h2, h3, h4⟩ := optLoop_spec (exchange_two hD n) heps (tourLength D (List.range n)) (List.range n) hr
  refine ⟨X, ?_, h2, h3, ?_⟩
  · rw [twoOpt, cost_eq D _ n (tour_length hr) (by intro h; have := tour_length hr; rw [h] at this; simp at this; omega)]
    dsimp only
    rw [h1]
    rw [sub_sub_cancel]
    rfl
  · apply locallyOptimal_of_gain hD heps
    rw [tour_length h2]
    exact h4

/-- C62, `steepest_ascent_two_opt` with at least two points and symmetric distances that agree with the Euclidean ones,
ends and returns a tour with its length, not longer than that of `farthest_insertion`, and no reversal of a stretch
shortens it by more than the threshold.  Not covered: any other distance matrix, for which the claim fails, see below. -/
theorem C62_steepest_ascent_partial (D : ℕ → ℕ → R) (hD : ∀ i j, D i j = D j i) {eps : R} (heps : 0 ≤ eps) {n : ℕ}
    (h2 : 2 ≤ n) : ∃ path start, steepestAscentTwoOpt D D eps n = some (.ok (tourLength D path, path)) ∧ IsTour n path ∧
      farthestInsertion D n = some (.ok (tourLength D start, start)) ∧ tourLength D path ≤ tourLength D start ∧
      LocallyOptimal D eps path := by
  obtain ⟨start, h3, h4, -⟩ := C62_farthest_insertion D h2
  obtain ⟨X, h5, h6, h7, h8⟩ := optLoop_spec (exchange_steep hD n) heps (tourLength D start) start h4
  refine ⟨X, start, ?_, h6, h3, h7, ?_⟩
  · rw [steepestAscentTwoOpt, h3]
    dsimp only
    rw [h5, sub_sub_cancel]
    rfl
  · apply locallyOptimal_of_gain hD heps
    rw [tour_length h6]
    intro i j hij hj
    rw [← gainSteep_eq D n X i j hij hj]
    exact h8 i j hij hj

/-- C62, `steepest_ascent_two_opt` with a symmetric distance matrix of its own: the path is a tour, but the value returned is
the Euclidean length of the initial tour less the reduction in the given distances. -/
theorem C62_steepest_ascent_value (euclid D : ℕ → ℕ → R) (hD : ∀ i j, D i j = D j i) {eps : R} (heps : 0 ≤ eps) {n : ℕ}
    (h2 : 2 ≤ n) : ∃ path start, steepestAscentTwoOpt euclid D eps n =
        some (.ok (tourLength euclid start - (tourLength D start - tourLength D path), path)) ∧ IsTour n path ∧
      farthestInsertion euclid n = some (.ok (tourLength euclid start, start)) ∧ LocallyOptimal D eps path := by
  obtain ⟨start, h3, h4, -⟩ := C62_farthest_insertion euclid h2
  obtain ⟨X, h5, h6, h7, h8⟩ := optLoop_spec (exchange_steep hD n) heps (tourLength euclid start) start h4
  refine ⟨X, start, ?_, h6, h3, ?_⟩
  · rw [steepestAscentTwoOpt, h3]
    dsimp only
    rw [h5]
    rfl
  · apply locallyOptimal_of_gain hD heps
    rw [tour_length h6]
    intro i j hij hj
    rw [← gainSteep_eq D n X i j hij hj]
    exact h8 i j hij hj

/-- C62, `random_two_opt` returns, if it ends, a permutation of the path. -/
theorem C62_random_two_opt (path : List ℕ) (a : ℕ) (bs : ℕ → ℕ) (r : List ℕ) (h : randomTwoOpt path a bs 0 = some r) :
    r.Perm path := by
  obtain ⟨b, -, -, -, -, -, -, rfl⟩ := randomTwoOpt_perm path a bs 0 r h
  exact stretch_perm path _ _ (by omega)

/-- C62, `random_two_opt` of at least four cities ends as soon as an index is drawn that is neither `a` nor next to it on
the cycle. -/
theorem C62_random_two_opt_ends (path : List ℕ) (a : ℕ) (ha : a < path.length) (bs : ℕ → ℕ)
    (h : ∃ k, bs k ≠ a ∧ bs k ≠ (a + 1) % path.length ∧ a ≠ (bs k + 1) % path.length ∧ bs k < path.length) :
    ∃ r, randomTwoOpt path a bs 0 = some r := by
  have key : ∀ d k m, k = m + d → bs k ≠ a → bs k ≠ (a + 1) % path.length → a ≠ (bs k + 1) % path.length →
      bs k < path.length → ∃ r, randomTwoOpt path a bs m = some r := by
    intro d
    induction d with
    | zero =>
      intro k m hk h1 h2 h3 h4
      rw [Nat.add_zero] at hk
      subst hk
      rw [randomTwoOpt.eq_def]
      dsimp only
      have e1 : a + 1 ≠ bs k := by
        intro e
        rw [Nat.mod_eq_of_lt (by omega)] at h2
        exact h2 e.symm
      have e2 : bs k + 1 ≠ a := by
        intro e
        rw [Nat.mod_eq_of_lt (by omega)] at h3
        exact h3 e.symm
      rw [if_neg (by omega), if_neg]
      · exact ⟨_, rfl⟩
      · rintro (⟨e3, e4⟩ | ⟨e3, e4⟩)
        · rw [e4, Nat.mod_self] at h3; exact h3 e3
        · rw [e3, Nat.mod_self] at h2; exact h2 e4
    | succ d ih =>
      intro k m hk h1 h2 h3 h4
      obtain ⟨r, hr⟩ := ih k (m + 1) (by omega) h1 h2 h3 h4
      rw [randomTwoOpt.eq_def]
      dsimp only
      split
      · exact ⟨r, hr⟩
      · split
        · exact ⟨r, hr⟩
        · exact ⟨_, rfl⟩
  obtain ⟨k, h1, h2, h3, h4⟩ := h
  exact key k k 0 (by omega) h1 h2 h3 h4

/-- C62, `random_two_opt` never ends for three cities or fewer, whatever is drawn. -/
theorem C62_random_two_opt_hangs (path : List ℕ) (h3 : path.length ≤ 3) (a : ℕ) (ha : a < path.length) (bs : ℕ → ℕ)
    (hb : ∀ k, bs k < path.length) : randomTwoOpt path a bs 0 = none := by
  by_contra hne
  obtain ⟨r, hr⟩ := Option.ne_none_iff_exists'.1 hne
  obtain ⟨b, ⟨m, -, rfl⟩, h⟩ := randomTwoOpt_perm path a bs 0 r hr
  have := hb m
  omega

/-- C62, `simulated_annealing_two_opt` of at least three points ends, whatever is drawn and accepted, with a tour and its
length, not longer than the initial shuffle. -/
theorem C62_annealing (D : ℕ → ℕ → R) {n : ℕ} (hn : 3 ≤ n) {tol : R} (htol : 0 < tol) (draws : ℕ → List (ℕ × ℕ × Bool))
    (hd : ∀ t, ∀ d ∈ draws t, 2 ≤ d.1 ∧ d.1 < n ∧ d.2.1 + 2 ≤ d.1) (start : List ℕ) (hs : IsTour n start) :
    ∃ path, annealing D n tol draws start = some (.ok (tourLength D path, path)) ∧ IsTour n path ∧
      tourLength D path ≤ tourLength D start := by
  obtain ⟨path, h1, h2, h3⟩ := annealLoop_spec hn htol draws (D := D) (fun t d hd' => by have := hd t d hd'; omega) 0 0
    (by omega) none start hs
  refine ⟨path, ?_, h2, h3⟩
  rw [annealing, cost_eq D start n (tour_length hs) (by rintro rfl; have := tour_length hs; simp at this; omega)]
  exact h1

/-! ## Violations and examples -/

/-- A run of the loop with a bound on the number of iterations. -/
def optLoopN (gain : List ℕ → ℕ → ℕ → ℤ) (move : List ℕ → ℕ → ℕ → List ℕ) (n : ℕ) (eps : ℤ) : ℕ → ℤ → List ℕ →
    Option (ℤ × List ℕ)
  | 0, _, _ => none
  | k + 1, best, X =>
    if eps < (bestPair (gain X) n).1 then
      optLoopN gain move n eps k (best - (bestPair (gain X) n).1)
        (move X (bestPair (gain X) n).2.1 (bestPair (gain X) n).2.2)
    else some (best, X)

theorem optLoop_of_fuel (gain : List ℕ → ℕ → ℕ → ℤ) (move : List ℕ → ℕ → ℕ → List ℕ) (n : ℕ) (eps : ℤ) (k : ℕ) (best : ℤ)
    (X : List ℕ) (r : ℤ × List ℕ) (h : optLoopN gain move n eps k best X = some r) :
    optLoop gain move n eps best X = some r := by
  induction k generalizing best X with
  | zero => simp [optLoopN] at h
  | succ k ih =>
    rw [optLoopN] at h
    rw [optLoop.eq_def]
    split
    · rename_i hlt; rw [if_pos hlt] at h; exact ih _ _ h
    · rename_i hlt; rw [if_neg hlt] at h; exact h

/-- A run of the loop that follows the edges with a bound on the number of iterations. -/
def followN (edges : List (ℕ × ℕ)) : ℕ → List ℕ → ℕ → Option (Except PyErr (List ℕ))
  | 0, _, _ => none
  | k + 1, path, next =>
    if next = 0 then some (.ok path)
    else
      match nextNode edges next with
      | .error e => some (.error e)
      | .ok v => followN edges k (path ++ [next]) v

theorem follow_of_fuel (edges : List (ℕ × ℕ)) (k : ℕ) (path : List ℕ) (next : ℕ) (r : Except PyErr (List ℕ))
    (h : followN edges k path next = some r) : follow edges path next = some r := by
  induction k generalizing path next with
  | zero => simp [followN] at h
  | succ k ih =>
    rw [followN] at h
    rw [follow.eq_def]
    split
    · rename_i h0; rw [if_pos h0] at h; exact h
    · rename_i h0
      rw [if_neg h0] at h
      split
      · rename_i he; rw [he] at h; exact h
      · rename_i he; rw [he] at h; exact ih _ _ h

theorem farthestInsertion_of_fuel {D : ℕ → ℕ → ℤ} {n : ℕ} {edges : List (ℕ × ℕ)} {tw : ℤ} (k : ℕ) {v : ℕ} {path : List ℕ}
    (h1 : farthestEdges D n = .ok (edges, tw)) (h2 : nextNode edges 0 = .ok v)
    (h3 : followN edges k [0] v = some (.ok path)) : farthestInsertion D n = some (.ok (tw, path)) := by
  rw [farthestInsertion, h1]
  dsimp only
  rw [h2]
  dsimp only
  rw [follow_of_fuel _ _ _ _ _ h3]

/-- C62 fails for `farthest_insertion` without points: the result is the tour `[0]` of one city. -/
theorem C62_farthest_insertion_violation (D : ℕ → ℕ → ℤ) : farthestInsertion D 0 = some (.ok (0, [0])) :=
  farthestInsertion_of_fuel 1 (edges := [(0, 0)]) (v := 0) rfl rfl rfl

/-- Distances of three cities, with different ways there and back. -/
def oneWay : ℕ → ℕ → ℤ := fun i j => ([[0, 9, 5], [1, 0, 0], [9, 1, 0]].getD i []).getD j 0

/-- C62 fails for `two_opt` with a matrix that is not symmetric: the length that is returned is wrong. -/
theorem C62_two_opt_violation : ∃ path, twoOpt oneWay 0 3 = some (.ok (6, path)) ∧ tourLength oneWay path = 7 ∧
    IsTour 3 path := by
  refine ⟨[0, 2, 1], ?_, by decide +kernel, isTour_iff.2 (by decide)⟩
  rw [twoOpt]
  have : cost oneWay (List.range 3) 3 = .ok 18 := by decide +kernel
  rw [this]
  dsimp only
  rw [optLoop_of_fuel _ _ _ _ 3 _ _ (6, [0, 2, 1]) (by decide +kernel)]
  rfl

/-- Points at the positions 0, 1, 2 of a line: their Euclidean distances. -/
def onLine : ℕ → ℕ → ℤ := fun i j => if i ≤ j then (j : ℤ) - i else (i : ℤ) - j

/-- C62 fails for `steepest_ascent_two_opt` with a distance matrix of its own, because the length of the initial tour is
that of the Euclidean distances: for three points on a line that are declared to be at distance 10 from each other the
result is 4 instead of 30. -/
theorem C62_steepest_ascent_violation :
    ∃ path, steepestAscentTwoOpt onLine (fun _ _ => 10) 0 3 = some (.ok (4, path)) ∧
      tourLength (fun _ _ => (10 : ℤ)) path = 30 ∧ IsTour 3 path := by
  refine ⟨[0, 1, 2], ?_, by decide +kernel, isTour_iff.2 (by decide)⟩
  have hf : farthestInsertion onLine 3 = some (.ok (4, [0, 1, 2])) :=
    farthestInsertion_of_fuel 5 (edges := [(1, 2), (0, 1), (2, 0)]) (v := 1) (by decide +kernel) (by decide +kernel)
      (by decide +kernel)
  rw [steepestAscentTwoOpt, hf]
  dsimp only
  rw [optLoop_of_fuel _ _ _ _ 3 _ _ (4, [0, 1, 2]) (by decide +kernel)]
  rfl

/-- Distances of five cities. -/
def cities : ℕ → ℕ → ℤ := fun i j =>
  ([[0, 3, 9, 9, 4], [3, 0, 8, 2, 9], [9, 8, 0, 3, 2], [9, 2, 3, 0, 8], [4, 9, 2, 8, 0]].getD i []).getD j 0

/-- The distances of the five cities with an infinite diagonal. -/
def citiesTop : ℕ → ℕ → WithTop ℤ := fun i j => if i = j then ⊤ else cities i j

example : depthFirst citiesTop 5 = .ok (14, [0, 1, 3, 2, 4]) := by decide +kernel
example : branchAndBound citiesTop 5 = some (.ok (14, [0, 1, 3, 2, 4])) := by decide +kernel
example : ∀ i < 5, ∀ j < 5, i ≠ j → citiesTop i j ≠ ⊤ := by decide +kernel
example : farthestEdges cities 5 = .ok ([(1, 0), (3, 1), (2, 3), (4, 2), (0, 4)], 14) := by decide +kernel

example : twoOpt cities 0 5 = some (.ok (14, [0, 1, 3, 2, 4])) := by
  rw [twoOpt]
  have : cost cities (List.range 5) 5 = .ok 26 := by decide +kernel
  rw [this]
  dsimp only
  rw [optLoop_of_fuel _ _ _ _ 5 _ _ (14, [0, 1, 3, 2, 4]) (by decide +kernel)]
  rfl

example : randomTwoOpt [5, 6, 7, 8] 3 (fun k => if k = 0 then 2 else 1) 0 = some [5, 8, 7, 6] := by
  rw [randomTwoOpt.eq_def, if_pos (by decide), randomTwoOpt.eq_def]
  decide +kernel

example : annealStep cities 5 (26, [0, 1, 2, 3, 4], [0, 1, 2, 3, 4]) 3 2 false =
    .ok (14, [0, 1, 3, 2, 4], [0, 1, 3, 2, 4]) := by decide +kernel

example : ∃ path, annealing cities 5 1 (fun _ => [(3, 1, true), (4, 0, false)]) [0, 1, 2, 3, 4] =
    some (.ok (tourLength cities path, path)) ∧ IsTour 5 path ∧ tourLength cities path ≤ tourLength cities [0, 1, 2, 3, 4] :=
  C62_annealing cities (by omega) (by omega) _ (by simp) _ (isTour_iff.2 (by decide))

end Rosemary.Props
