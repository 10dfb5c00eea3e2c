import Verif.Props.Knapsack
import Verif.Props.Tsp

/-!
# How the best knapsacks and the shortest tours depend on the input (C189)
-/

namespace Rosemary.Props

/-! ### Knapsacks -/

section knapsack

open Rosemary.Knapsack

/-- The value `v` is returned by `depth_first` or by `dynamic_programming`. -/
def ReturnedValue (items : List Item) (capacity v : ℤ) : Prop :=
  (Knapsack.depthFirst items capacity).1 = v ∨ ∃ used, dynamicProgramming items capacity = .ok (v, used)

theorem returnedValue_optimal {items : List Item} {capacity v : ℤ} (hc : 0 ≤ capacity) (hw : ∀ x ∈ items, 0 ≤ x.2)
    (h : ReturnedValue items capacity v) :
    (∃ s, s.Sublist items ∧ wt s ≤ capacity ∧ val s = v) ∧ ∀ s, s.Sublist items → wt s ≤ capacity → val s ≤ v := by
  have key : ∀ best, Optimal items capacity best → best.1 = v →
      (∃ s, s.Sublist items ∧ wt s ≤ capacity ∧ val s = v) ∧ ∀ s, s.Sublist items → wt s ≤ capacity → val s ≤ v := by
    rintro best ⟨⟨s, h1, h2⟩, h3, h4, h5⟩ rfl
    exact ⟨⟨s, h1, by rw [← wt_perm h2]; exact h4, by rw [← val_perm h2]; exact h3⟩, h5⟩
  rcases h with h | ⟨used, h⟩
  · exact key _ (C60_depth_first items capacity hc hw).1 h
  · obtain ⟨best, h1, h2, -⟩ := C60_dynamic_programming items capacity hc hw
    rw [h] at h1
    simp only [Except.ok.injEq] at h1
    exact key best h2 (by rw [← h1])

/-- Both functions return a value. -/
theorem returnedValue_exists (items : List Item) (capacity : ℤ) : ReturnedValue items capacity (Knapsack.depthFirst items capacity).1 :=
  Or.inl rfl

/-- C189: `depth_first` and `dynamic_programming` return the same value, for every order of the items. -/
theorem C189_order {items items' : List Item} (hp : items.Perm items') {c v v' : ℤ} (hc : 0 ≤ c) (hw : ∀ x ∈ items, 0 ≤ x.2)
    (h : ReturnedValue items c v) (h' : ReturnedValue items' c v') : v = v' := by
  obtain ⟨⟨s, h1, h2, rfl⟩, h4⟩ := returnedValue_optimal hc hw h
  obtain ⟨⟨s', k1, k2, rfl⟩, k4⟩ := returnedValue_optimal hc (fun x hx => hw x (hp.mem_iff.2 hx)) h'
  refine le_antisymm ?_ ?_
  · obtain ⟨t, t1, t2⟩ := List.exists_perm_sublist h1 hp
    rw [← val_perm t1]
    exact k4 t t2 (by rw [wt_perm t1]; exact h2)
  · obtain ⟨t, t1, t2⟩ := List.exists_perm_sublist k1 hp.symm
    rw [← val_perm t1]
    exact h4 t t2 (by rw [wt_perm t1]; exact k2)

/-- C189: a larger knapsack is worth no less, and the contents of two knapsacks fit into one with the sum of the capacities. -/
theorem C189_capacity {items items' : List Item} {c c' v v' v'' : ℤ} (hc : 0 ≤ c) (hc' : 0 ≤ c') (hw : ∀ x ∈ items, 0 ≤ x.2)
    (hw' : ∀ x ∈ items', 0 ≤ x.2) (h : ReturnedValue items c v) (h' : ReturnedValue items' c' v')
    (h'' : ReturnedValue (items ++ items') (c + c') v'') : v + v' ≤ v'' ∧ ∀ z, c ≤ c' → ReturnedValue items c' z → v ≤ z := by
  obtain ⟨⟨s, h1, h2, rfl⟩, h4⟩ := returnedValue_optimal hc hw h
  obtain ⟨⟨s', k1, k2, rfl⟩, k4⟩ := returnedValue_optimal hc' hw' h'
  obtain ⟨-, l4⟩ := returnedValue_optimal (by omega) (by
    intro x hx
    rcases List.mem_append.1 hx with hx | hx
    · exact hw x hx
    · exact hw' x hx) h''
  refine ⟨?_, fun z hz hv => ?_⟩
  · rw [← val_append]
    exact l4 _ (h1.append k1) (by rw [wt_append]; omega)
  · exact (returnedValue_optimal hc' hw hv).2 s h1 (by omega)

/-- C189 (Bellman): with one more item, wherever it stands in the list, the value is the larger one of the value without it
and, if it fits, its value and the value of what fits beside it. -/
theorem C189_one_more_item {items items' : List Item} {x : Item} (hp : items'.Perm (x :: items)) {c v v' : ℤ} (hc : 0 ≤ c)
    (hw : ∀ x ∈ items', 0 ≤ x.2) (h : ReturnedValue items c v) (h' : ReturnedValue items' c v') :
    (c < x.2 → v' = v) ∧ (x.2 ≤ c → ∀ r, ReturnedValue items (c - x.2) r → v' = max v (x.1 + r)) := by
  have hw' : ∀ y ∈ x :: items, 0 ≤ y.2 := fun y hy => hw y (hp.mem_iff.2 hy)
  have hwi : ∀ y ∈ items, 0 ≤ y.2 := fun y hy => hw' y (List.mem_cons_of_mem _ hy)
  have hd := returnedValue_exists (x :: items) c
  rw [C189_order hp hc hw h' hd]
  obtain ⟨⟨s, h1, h2, rfl⟩, h4⟩ := returnedValue_optimal hc hwi h
  obtain ⟨⟨s', k1, k2, k3⟩, k4⟩ := returnedValue_optimal hc hw' hd
  rw [← k3] at k4 ⊢
  have hle : val s ≤ val s' := k4 s (h1.trans (List.sublist_cons_self _ _)) h2
  constructor
  · intro hx
    refine le_antisymm ?_ hle
    rcases List.sublist_cons_iff.1 k1 with k | ⟨r, rfl, k⟩
    · exact h4 s' k k2
    · have := wt_nonneg (s := r) fun y hy => hwi y (k.subset hy)
      rw [wt_cons] at k2
      omega
  · intro hx r hr
    obtain ⟨⟨t, t1, t2, rfl⟩, t4⟩ := returnedValue_optimal (by omega) hwi hr
    refine le_antisymm ?_ (max_le hle ?_)
    · rcases List.sublist_cons_iff.1 k1 with k | ⟨r, rfl, k⟩
      · exact le_max_of_le_left (h4 s' k k2)
      · refine le_max_of_le_right ?_
        rw [val_cons]
        rw [wt_cons] at k2
        have := t4 r k (by omega)
        omega
    · rw [← val_cons]
      exact k4 _ (t1.cons_cons x) (by rw [wt_cons]; omega)

theorem val_map_mul (k m : ℤ) (s : List Item) : val (s.map fun x => (k * x.1, m * x.2)) = k * val s := by
  induction s with
  | nil => simp
  | cons x s ih => rw [List.map_cons, val_cons, val_cons, ih]; ring

theorem wt_map_mul (k m : ℤ) (s : List Item) : wt (s.map fun x => (k * x.1, m * x.2)) = m * wt s := by
  induction s with
  | nil => simp
  | cons x s ih => rw [List.map_cons, wt_cons, wt_cons, ih]; ring

/-- C189: other units for values and weights. -/
theorem C189_units {items : List Item} {k m : ℤ} (hk : 0 ≤ k) (hm : 0 < m) {c v v' : ℤ} (hc : 0 ≤ c) (hw : ∀ x ∈ items, 0 ≤ x.2)
    (h : ReturnedValue items c v) (h' : ReturnedValue (items.map fun x => (k * x.1, m * x.2)) (m * c) v') : v' = k * v := by
  obtain ⟨⟨s, h1, h2, rfl⟩, h4⟩ := returnedValue_optimal hc hw h
  obtain ⟨⟨s', k1, k2, rfl⟩, k4⟩ := returnedValue_optimal (by positivity) (by
    intro x hx
    obtain ⟨y, hy, rfl⟩ := List.mem_map.1 hx
    exact mul_nonneg hm.le (hw y hy)) h'
  refine le_antisymm ?_ ?_
  · obtain ⟨t, t1, rfl⟩ := List.sublist_map_iff.1 k1
    rw [wt_map_mul] at k2
    rw [val_map_mul]
    exact mul_le_mul_of_nonneg_left (h4 t t1 (le_of_mul_le_mul_left k2 hm)) hk
  · rw [← val_map_mul k m]
    exact k4 _ (h1.map _) (by rw [wt_map_mul]; exact mul_le_mul_of_nonneg_left h2 hm.le)

example : ReturnedValue [(3, 2), (4, 3), (5, 4)] 6 8 ∧ ReturnedValue [(5, 4), (7, 5), (3, 2), (4, 3)] 8 11 :=
  ⟨Or.inl (by decide +kernel), Or.inr ⟨[(4, 3), (7, 5)], by decide +kernel⟩⟩

end knapsack

/-! ### Tours -/

section tours

open Rosemary.Tsp Rosemary.Spec

variable {R : Type} [AddCommGroup R] [LinearOrder R] [IsOrderedAddMonoid R]

/-- The length `v` is returned by `depth_first` or by `branch_and_bound`. -/
def ReturnedLength (D : ℕ → ℕ → WithTop R) (n : ℕ) (v : WithTop R) : Prop :=
  (∃ path, Tsp.depthFirst D n = .ok (v, path)) ∨ ∃ path, Tsp.branchAndBound D n = some (.ok (v, path))

theorem returnedLength_shortest {D : ℕ → ℕ → WithTop R} {n : ℕ} (h2 : 2 ≤ n) (hD : ∀ i < n, ∀ j < n, i ≠ j → D i j ≠ ⊤)
    {v : WithTop R} (h : ReturnedLength D n v) :
    (∃ t, IsTour n t ∧ tourLength D t = v) ∧ ∀ t, IsTour n t → v ≤ tourLength D t := by
  rcases h with ⟨path, h⟩ | ⟨path, h⟩
  · obtain ⟨v', p, h1, k1, k2, k3⟩ := C62_depth_first_finite D h2 hD
    rw [h] at h1
    simp only [Except.ok.injEq, Prod.mk.injEq] at h1
    rw [h1.1]
    exact ⟨⟨p, k1, k2⟩, k3⟩
  · obtain ⟨v', p, h1, k1, k2, k3⟩ := C62_branch_and_bound_partial D h2 hD
    rw [h] at h1
    simp only [Option.some.injEq, Except.ok.injEq, Prod.mk.injEq] at h1
    rw [h1.1]
    exact ⟨⟨p, k1, k2⟩, k3⟩

theorem tourLength_mono {D D' : ℕ → ℕ → WithTop R} {n : ℕ} (h : ∀ i < n, ∀ j < n, i ≠ j → D i j ≤ D' i j) (h2 : 2 ≤ n) {t : List ℕ}
    (ht : IsTour n t) : tourLength D t ≤ tourLength D' t := by
  have key : ∀ (l : List ℕ) (a z : ℕ), a < n → z < n → (∀ x ∈ l, x < n) → (a :: (l ++ [z])).IsChain (· ≠ ·) →
      way D a l z ≤ way D' a l z := by
    intro l
    induction l with
    | nil =>
      intro a z ha hz _ hc
      rw [way_nil, way_nil]
      exact h a ha z hz (by simpa using hc)
    | cons b l ih =>
      intro a z ha hz hl hc
      rw [way_cons, way_cons]
      rw [List.cons_append, List.isChain_cons_cons] at hc
      exact add_le_add (h a ha b (hl b (by simp)) hc.1) (ih b z (hl b (by simp)) hz (fun x hx => hl x (by simp [hx])) hc.2)
  cases t with
  | nil => have := tour_length ht; simp at this; omega
  | cons a l =>
    rw [tourLength_cons, tourLength_cons]
    have hlt : ∀ x ∈ a :: l, x < n := fun x hx => (ht.2 x).1 hx
    refine key l a a (hlt a (by simp)) (hlt a (by simp)) (fun x hx => hlt x (by simp [hx])) ?_
    have hne : l ≠ [] := by
      rintro rfl
      have := tour_length ht
      simp at this
      omega
    rw [← List.cons_append, List.isChain_append]
    refine ⟨ht.1.isChain, by simp, fun x hx y hy => ?_⟩
    simp only [List.head?_cons, Option.mem_some_iff] at hy
    subst hy
    rintro rfl
    have hx' : l.getLast? = some x := by
      rw [Option.mem_def, List.getLast?_cons] at hx
      rw [List.getLast?_eq_some_getLast hne] at hx ⊢
      simpa using hx
    exact (List.nodup_cons.1 ht.1).1 (List.mem_of_getLast? hx')

/-- C189: if no distance between different points grows, the length does not grow either. -/
theorem C189_distances {D D' : ℕ → ℕ → WithTop R} {n : ℕ} (h2 : 2 ≤ n) (hD' : ∀ i < n, ∀ j < n, i ≠ j → D' i j ≠ ⊤)
    (h : ∀ i < n, ∀ j < n, i ≠ j → D i j ≤ D' i j) {v v' : WithTop R} (hv : ReturnedLength D n v) (hv' : ReturnedLength D' n v') :
    v ≤ v' := by
  obtain ⟨-, h4⟩ := returnedLength_shortest h2 (fun i hi j hj hij => ne_top_of_le_ne_top (hD' i hi j hj hij) (h i hi j hj hij)) hv
  obtain ⟨⟨t, k1, rfl⟩, -⟩ := returnedLength_shortest h2 hD' hv'
  exact (h4 t k1).trans (tourLength_mono h h2 k1)

/-- C189: `depth_first` and `branch_and_bound` return the same length. -/
theorem C189_same_length {D : ℕ → ℕ → WithTop R} {n : ℕ} (h2 : 2 ≤ n) (hD : ∀ i < n, ∀ j < n, i ≠ j → D i j ≠ ⊤) {v v' : WithTop R}
    (hv : ReturnedLength D n v) (hv' : ReturnedLength D n v') : v = v' :=
  le_antisymm (C189_distances h2 hD (fun _ _ _ _ _ => le_rfl) hv hv') (C189_distances h2 hD (fun _ _ _ _ _ => le_rfl) hv' hv)

theorem way_map (D : ℕ → ℕ → WithTop R) (f : ℕ → ℕ) (a : ℕ) (l : List ℕ) (z : ℕ) :
    way (fun i j => D (f i) (f j)) a l z = way D (f a) (l.map f) (f z) := by
  induction l generalizing a with
  | nil => rfl
  | cons b l ih => rw [List.map_cons, way_cons, way_cons, ih]

theorem tourLength_map (D : ℕ → ℕ → WithTop R) (f : ℕ → ℕ) (l : List ℕ) :
    tourLength (fun i j => D (f i) (f j)) l = tourLength D (l.map f) := by
  cases l with
  | nil => rfl
  | cons a l => rw [List.map_cons, tourLength_cons, tourLength_cons, way_map]

theorem isTour_map {n : ℕ} {f : ℕ → ℕ} (hf : ∀ i < n, f i < n) (hi : ∀ i < n, ∀ j < n, f i = f j → i = j) {l : List ℕ} (h : IsTour n l) :
    IsTour n (l.map f) := by
  have hnd : (l.map f).Nodup := h.1.map_on fun x hx y hy he => hi x ((h.2 x).1 hx) y ((h.2 y).1 hy) he
  have hsub : (l.map f).Subset (List.range n) := by
    intro y hy
    obtain ⟨x, hx, rfl⟩ := List.mem_map.1 hy
    exact List.mem_range.2 (hf x ((h.2 x).1 hx))
  rw [isTour_iff]
  exact (List.subperm_of_subset hnd hsub).perm_of_length_le (by rw [List.length_map, tour_length h, List.length_range])

/-- C189: the numbering of the points does not matter. -/
theorem C189_numbering {D : ℕ → ℕ → WithTop R} {n : ℕ} (h2 : 2 ≤ n) (hD : ∀ i < n, ∀ j < n, i ≠ j → D i j ≠ ⊤) {f : ℕ → ℕ}
    (hf : ∀ i < n, f i < n) (hi : ∀ i < n, ∀ j < n, f i = f j → i = j) {v v' : WithTop R} (hv : ReturnedLength D n v)
    (hv' : ReturnedLength (fun i j => D (f i) (f j)) n v') : v = v' := by
  obtain ⟨⟨s, h3, rfl⟩, h4⟩ := returnedLength_shortest h2 hD hv
  obtain ⟨⟨t, k3, rfl⟩, k4⟩ := returnedLength_shortest h2
    (fun i h5 j h6 hij => hD _ (hf i h5) _ (hf j h6) fun h7 => hij (hi i h5 j h6 h7)) hv'
  refine le_antisymm ?_ ?_
  · rw [tourLength_map D f t]; exact h4 _ (isTour_map hf hi k3)
  · -- the inverse of `f`
    have hsurj : ∀ j < n, ∃ i < n, f i = j := by
      intro j hj
      have := ((isTour_map hf hi ⟨List.nodup_range, fun i => List.mem_range⟩).2 j).2 hj
      obtain ⟨i, h7, h8⟩ := List.mem_map.1 this
      exact ⟨i, List.mem_range.1 h7, h8⟩
    choose! g hg using hsurj
    have hs : s = (s.map g).map f := by
      rw [List.map_map]
      conv_lhs => rw [← List.map_id s]
      exact List.map_congr_left fun x hx => ((hg x ((h3.2 x).1 hx)).2).symm
    rw [hs, ← tourLength_map]
    refine k4 _ (isTour_map (fun i h5 => (hg i h5).1) (fun i h5 j h6 he => ?_) h3)
    rw [← (hg i h5).2, ← (hg j h6).2, he]

theorem way_swap (D : ℕ → ℕ → WithTop R) (a : ℕ) (l : List ℕ) (z : ℕ) :
    way (fun i j => D j i) a l z = way D z l.reverse a := by
  induction l generalizing a with
  | nil => rfl
  | cons b l ih =>
    rw [List.reverse_cons, way_append, way_cons, ih, way_nil, add_comm]

/-- C189: the direction of all ways can be turned round. -/
theorem C189_direction {D : ℕ → ℕ → WithTop R} {n : ℕ} (h2 : 2 ≤ n) (hD : ∀ i < n, ∀ j < n, i ≠ j → D i j ≠ ⊤) {v v' : WithTop R}
    (hv : ReturnedLength D n v) (hv' : ReturnedLength (fun i j => D j i) n v') : v = v' := by
  have swap : ∀ (D : ℕ → ℕ → WithTop R) t, IsTour n t → ∃ t', IsTour n t' ∧ tourLength D t' = tourLength (fun i j => D j i) t := by
    intro D t ht
    cases t with
    | nil => exact ⟨[], ht, rfl⟩
    | cons a l =>
      refine ⟨a :: l.reverse, ?_, ?_⟩
      · rw [isTour_iff] at ht ⊢
        exact ((List.reverse_perm l).cons a).trans ht
      · rw [tourLength_cons, tourLength_cons, ← way_swap]
  obtain ⟨⟨s, h3, rfl⟩, h4⟩ := returnedLength_shortest h2 hD hv
  obtain ⟨⟨t, k3, rfl⟩, k4⟩ := returnedLength_shortest h2 (fun i h5 j h6 hij => hD j h6 i h5 hij.symm) hv'
  refine le_antisymm ?_ ?_
  · obtain ⟨t', e1, e2⟩ := swap D t k3
    rw [← e2]; exact h4 t' e1
  · obtain ⟨t', e1, e2⟩ := swap (fun i j => D j i) s h3
    exact (k4 t' e1).trans e2.le

/-- C189: with the triangle inequality, leaving out the last point does not make the tour longer. -/
theorem C189_one_point_less {D : ℕ → ℕ → WithTop R} {n : ℕ} (h2 : 2 ≤ n) (hD : ∀ i < n + 1, ∀ j < n + 1, i ≠ j → D i j ≠ ⊤)
    (htri : ∀ i < n, ∀ j < n, i ≠ j → D i j ≤ D i n + D n j) {v v' : WithTop R} (hv : ReturnedLength D n v)
    (hv' : ReturnedLength D (n + 1) v') : v ≤ v' := by
  obtain ⟨-, h4⟩ := returnedLength_shortest h2 (fun i hi j hj hij => hD i (by omega) j (by omega) hij) hv
  obtain ⟨⟨t, k1, rfl⟩, -⟩ := returnedLength_shortest (by omega) hD hv'
  obtain ⟨p, q, rfl⟩ := List.append_of_mem ((k1.2 n).2 (by omega))
  have hrot := tour_rotate k1 p.length
  rw [← tourLength_rotate D _ p.length, List.rotate_append_length_eq]
  rw [List.rotate_append_length_eq] at hrot
  rw [List.cons_append] at hrot ⊢
  generalize q ++ p = l at hrot
  have hlen : l.length = n := by have := tour_length hrot; simpa using this
  have hl : IsTour n l := by
    refine ⟨(List.nodup_cons.1 hrot.1).2, fun i => ⟨fun hi => ?_, fun hi => ?_⟩⟩
    · have h5 := (hrot.2 i).1 (List.mem_cons_of_mem _ hi)
      have h6 : i ≠ n := by rintro rfl; exact (List.nodup_cons.1 hrot.1).1 hi
      omega
    · rcases List.mem_cons.1 ((hrot.2 i).2 (by omega)) with h5 | h5
      · omega
      · exact h5
  refine (h4 l hl).trans ?_
  cases l with
  | nil => simp at hlen; omega
  | cons a r =>
    rcases List.eq_nil_or_concat r with rfl | ⟨m, b, rfl⟩
    · simp at hlen; omega
    rw [List.concat_eq_append] at *
    have ha : a < n := (hl.2 a).1 (by simp)
    have hb : b < n := (hl.2 b).1 (by simp)
    have hab : b ≠ a := by
      rintro rfl
      exact (List.nodup_cons.1 hl.1).1 (by simp)
    rw [tourLength_cons, tourLength_cons, way_cons, way_append, way_append, way_nil, way_nil]
    calc way D a m b + D b a ≤ way D a m b + (D b n + D n a) := add_le_add le_rfl (htri b hb a ha hab)
      _ = _ := by rw [add_comm (D n a), add_assoc]

/-! ### What does not carry over to the insertion heuristic -/

/-- The distances of points of the plane along the axes. -/
def streets (points : List (ℤ × ℤ)) : ℕ → ℕ → ℤ := fun i j =>
  |(points.getD i (0, 0)).1 - (points.getD j (0, 0)).1| + |(points.getD i (0, 0)).2 - (points.getD j (0, 0)).2|

theorem farthest_value {D : ℕ → ℕ → ℤ} {n : ℕ} (hn : 0 < n) {edges : List (ℕ × ℕ)} {v : ℤ} (h : farthestEdges D n = .ok (edges, v)) :
    ∃ path, farthestInsertion D n = some (.ok (v, path)) := by
  obtain ⟨path, edges', v', h1, h2, -⟩ := C62_farthest_edges D hn
  rw [h] at h1
  simp only [Except.ok.injEq, Prod.mk.injEq] at h1
  exact ⟨path, by rw [h2, h1.2]⟩

/-- C189: the length of the tour of `farthest_insertion` depends on the numbering of the points ... -/
theorem C189_farthest_numbering_violation : ∃ D : ℕ → ℕ → ℤ, (∃ path, farthestInsertion D 5 = some (.ok (12, path))) ∧
    ∃ path, farthestInsertion (fun i j => D ((i + 1) % 5) ((j + 1) % 5)) 5 = some (.ok (14, path)) := by
  refine ⟨streets [(2, 2), (4, 3), (0, 3), (1, 4), (4, 4)], ?_, ?_⟩
  · obtain ⟨edges, h⟩ : ∃ edges, farthestEdges (streets [(2, 2), (4, 3), (0, 3), (1, 4), (4, 4)]) 5 = .ok (edges, 12) := ⟨_, rfl⟩
    exact farthest_value (by omega) h
  · obtain ⟨edges, h⟩ : ∃ edges, farthestEdges (fun i j => streets [(2, 2), (4, 3), (0, 3), (1, 4), (4, 4)] ((i + 1) % 5) ((j + 1) % 5)) 5 =
        .ok (edges, 14) := ⟨_, rfl⟩
    exact farthest_value (by omega) h

/-- ... and may get shorter with one more point, although the triangle inequality holds. -/
theorem C189_farthest_one_point_less_violation : ∃ D : ℕ → ℕ → ℤ, (∀ i j k, D i j ≤ D i k + D k j) ∧
    (∃ path, farthestInsertion D 5 = some (.ok (18, path))) ∧ ∃ path, farthestInsertion D 6 = some (.ok (16, path)) := by
  refine ⟨streets [(0, 0), (4, 2), (2, 4), (3, 4), (3, 0), (2, 2)], fun i j k => ?_, ?_, ?_⟩
  · simp only [streets]
    generalize ([(0, 0), (4, 2), (2, 4), (3, 4), (3, 0), (2, 2)] : List (ℤ × ℤ)).getD i (0, 0) = a
    generalize ([(0, 0), (4, 2), (2, 4), (3, 4), (3, 0), (2, 2)] : List (ℤ × ℤ)).getD j (0, 0) = b
    generalize ([(0, 0), (4, 2), (2, 4), (3, 4), (3, 0), (2, 2)] : List (ℤ × ℤ)).getD k (0, 0) = c
    have h1 := abs_sub_le a.1 c.1 b.1
    have h2 := abs_sub_le a.2 c.2 b.2
    omega
  · obtain ⟨edges, h⟩ : ∃ edges, farthestEdges (streets [(0, 0), (4, 2), (2, 4), (3, 4), (3, 0), (2, 2)]) 5 = .ok (edges, 18) := ⟨_, rfl⟩
    exact farthest_value (by omega) h
  · obtain ⟨edges, h⟩ : ∃ edges, farthestEdges (streets [(0, 0), (4, 2), (2, 4), (3, 4), (3, 0), (2, 2)]) 6 = .ok (edges, 16) := ⟨_, rfl⟩
    exact farthest_value (by omega) h

/-- The five cities and the first four of them: without the triangle inequality one more point may help. -/
example : ReturnedLength citiesTop 5 14 ∧ ReturnedLength citiesTop 4 17 :=
  ⟨Or.inl ⟨[0, 1, 3, 2, 4], by decide +kernel⟩, Or.inr ⟨[0, 1, 3, 2], by decide +kernel⟩⟩

end tours

end Rosemary.Props
