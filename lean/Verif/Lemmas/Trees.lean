import Verif.Lemmas.Prim
import Mathlib.Algebra.BigOperators.Ring.Finset
import Mathlib.Algebra.Order.BigOperators.Group.Finset

/-!
# Trees: leaves, tours around a tree, and the cost of growing a tree
-/

namespace Rosemary.Spec

open SpanningTrees

variable {V W : Type} [LinearOrder V]

/-! ### Leaves -/

theorem joined_isolated {T : Finset (V × V)} {x : V} (h : ∀ e ∈ T, e.1 ≠ x ∧ e.2 ≠ x) {u : V} (hj : Joined T u x) : u = x := by
  have := hj.const (fun a => a = x) (fun a b hab => by
    have h1 := (h _ hab).1
    have h2 := (h _ hab).2
    dsimp only at h1 h2
    rw [eq_iff_iff]
    exact ⟨fun e => absurd e h1, fun e => absurd e h2⟩)
  rw [eq_iff_iff] at this
  exact this.2 rfl

theorem SpanningTree.erase_leaf {A : V → V → Option W} {C : Finset V} {T : Finset (V × V)} (h : SpanningTree A C T) {x : V}
    (hx : x ∈ C) {e : V × V} (he : e ∈ T) (hex : e.1 = x ∨ e.2 = x) (hu : ∀ f ∈ T, f.1 = x ∨ f.2 = x → f = e) :
    SpanningTree A (C.erase x) (T.erase e) := by
  have hiso : ∀ f ∈ T.erase e, f.1 ≠ x ∧ f.2 ≠ x := by
    intro f hf
    rw [Finset.mem_erase] at hf
    exact ⟨fun hh => hf.1 (hu f hf.2 (Or.inl hh)), fun hh => hf.1 (hu f hf.2 (Or.inr hh))⟩
  refine ⟨fun u v huv => ?_, fun u huC v hvC => ?_, ?_⟩
  · obtain ⟨h1, h2⟩ := hiso _ huv
    obtain ⟨k1, k2, k3, k4⟩ := h.edge u v (Finset.mem_of_mem_erase huv)
    exact ⟨k1, Finset.mem_erase.2 ⟨h1, k2⟩, Finset.mem_erase.2 ⟨h2, k3⟩, k4⟩
  · obtain ⟨u1, u2⟩ := Finset.mem_erase.1 huC
    obtain ⟨v1, v2⟩ := Finset.mem_erase.1 hvC
    have hj := h.joined u u2 v v2
    rw [← Finset.insert_erase he] at hj
    obtain ⟨a, b⟩ := e
    dsimp only at hex
    rcases joined_insert.1 hj with hj | ⟨j1, j2⟩ | ⟨j1, j2⟩
    · exact hj
    · rcases hex with rfl | rfl
      · exact absurd (joined_isolated hiso j1) u1
      · exact absurd (joined_isolated hiso j2.symm) v1
    · rcases hex with rfl | rfl
      · exact absurd (joined_isolated hiso j2.symm) v1
      · exact absurd (joined_isolated hiso j1) u1
  · have h1 := Finset.card_erase_add_one he
    have h2 := Finset.card_erase_add_one hx
    have h3 := h.card
    omega

/-- Every vertex of a tree with at least two vertices is on an edge. -/
theorem SpanningTree.exists_edge {A : V → V → Option W} {C : Finset V} {T : Finset (V × V)} (h : SpanningTree A C T) {x : V}
    (hx : x ∈ C) {y : V} (hy : y ∈ C) (hne : y ≠ x) : ∃ e ∈ T, e.1 = x ∨ e.2 = x := by
  by_contra hc
  push Not at hc
  exact hne (joined_isolated hc (h.joined y hy x hx))

/-- A tree with at least two vertices has a leaf. -/
theorem SpanningTree.exists_leaf {A : V → V → Option W} {C : Finset V} {T : Finset (V × V)} (h : SpanningTree A C T)
    (hC : 2 ≤ C.card) : ∃ x ∈ C, ∃ e ∈ T, (e.1 = x ∨ e.2 = x) ∧ ∀ f ∈ T, f.1 = x ∨ f.2 = x → f = e := by
  by_contra hc
  push Not at hc
  have h2 : ∀ x ∈ C, 2 ≤ (T.filter (fun e => e.1 = x ∨ e.2 = x)).card := by
    intro x hx
    obtain ⟨y, hy, hne⟩ := Finset.exists_mem_ne (by omega : 1 < C.card) x
    obtain ⟨e, he, hex⟩ := h.exists_edge hx hy hne
    obtain ⟨f, hf, hfx, hfe⟩ := hc x hx e he hex
    exact Finset.one_lt_card.2 ⟨f, Finset.mem_filter.2 ⟨hf, hfx⟩, e, Finset.mem_filter.2 ⟨he, hex⟩, hfe⟩
  have h3 : ∑ x ∈ C, (T.filter (fun e => e.1 = x ∨ e.2 = x)).card = 2 * T.card := by
    simp only [Finset.card_filter]
    rw [Finset.sum_comm, mul_comm]
    apply Finset.sum_const_nat
    rintro ⟨a, b⟩ he
    obtain ⟨k1, k2, k3, -⟩ := h.edge a b he
    rw [← Finset.card_filter]
    have : C.filter (fun x => a = x ∨ b = x) = {a, b} := by
      ext x
      rw [Finset.mem_filter, Finset.mem_insert, Finset.mem_singleton]
      constructor
      · rintro ⟨-, rfl | rfl⟩
        · exact Or.inl rfl
        · exact Or.inr rfl
      · rintro (rfl | rfl)
        · exact ⟨k2, Or.inl rfl⟩
        · exact ⟨k3, Or.inr rfl⟩
    dsimp only
    rw [this, Finset.card_pair (ne_of_lt k1)]
  have h4 : C.card * 2 ≤ ∑ x ∈ C, (T.filter (fun e => e.1 = x ∨ e.2 = x)).card := by
    exact Finset.card_nsmul_le_sum C _ 2 h2
  have := h.card
  omega

theorem SpanningTree.insert_leaf {A : V → V → Option W} {C : Finset V} {T : Finset (V × V)} (h : SpanningTree A C T) {x y : V}
    (hx : x ∉ C) (hy : y ∈ C) {w : W} (hw : A (pair x y).1 (pair x y).2 = some w) :
    SpanningTree A (insert x C) (insert (pair x y) T) ∧ pair x y ∉ T := by
  have hne : x ≠ y := fun e => hx (e ▸ hy)
  have hj : Joined (insert (pair x y) T) x y := by
    rcases pair_cases hne with ⟨-, e⟩ | ⟨-, e⟩ <;> rw [e]
    · exact Joined.of_mem (Finset.mem_insert_self _ _)
    · exact (Joined.of_mem (Finset.mem_insert_self _ _)).symm
  have hnot : pair x y ∉ T := by
    intro hm
    rcases pair_cases hne with ⟨-, e⟩ | ⟨-, e⟩ <;> rw [e] at hm
    · exact hx (h.edge _ _ hm).2.1
    · exact hx (h.edge _ _ hm).2.2.1
  have hy' : ∀ u ∈ insert x C, Joined (insert (pair x y) T) u y := by
    intro u hu
    rcases Finset.mem_insert.1 hu with rfl | hu
    · exact hj
    · exact (h.joined u hu y hy).mono (Finset.subset_insert _ _)
  refine ⟨⟨fun u v huv => ?_, fun u hu v hv => (hy' u hu).trans (hy' v hv).symm, ?_⟩, hnot⟩
  · rcases Finset.mem_insert.1 huv with e | huv
    · rcases pair_cases hne with ⟨h1, e'⟩ | ⟨h1, e'⟩ <;> rw [e'] at e hw <;> injection e with e1 e2 <;> subst e1 e2
      · exact ⟨h1, Finset.mem_insert_self _ _, Finset.mem_insert_of_mem hy, w, hw⟩
      · exact ⟨h1, Finset.mem_insert_of_mem hy, Finset.mem_insert_self _ _, w, hw⟩
    · obtain ⟨k1, k2, k3, k4⟩ := h.edge u v huv
      exact ⟨k1, Finset.mem_insert_of_mem k2, Finset.mem_insert_of_mem k3, k4⟩
  · rw [Finset.card_insert_of_notMem hnot, Finset.card_insert_of_notMem hx, h.card]

/-! ### Tours -/

variable [AddCommMonoid W]

/-- The length of the way from `a` over the list to `b`. -/
def closeCost (d : V → V → W) : V → List V → V → W
  | a, [], b => d a b
  | a, c :: l, b => d a c + closeCost d c l b

/-- The length of the way from `a` over the list. -/
def openCost (d : V → V → W) : V → List V → W
  | _, [] => 0
  | a, c :: l => d a c + openCost d c l

/-- The single distances of `closeCost`. -/
def costs (d : V → V → W) : V → List V → V → List W
  | a, [], b => [d a b]
  | a, c :: l, b => d a c :: costs d c l b

omit [LinearOrder V] in
theorem closeCost_append (d : V → V → W) (a : V) (l1 : List V) (z : V) (l2 : List V) (b : V) :
    closeCost d a (l1 ++ z :: l2) b = closeCost d a l1 z + closeCost d z l2 b := by
  induction l1 generalizing a with
  | nil => rfl
  | cons c l ih => rw [List.cons_append, closeCost, closeCost, ih, add_assoc]

omit [LinearOrder V] in
theorem openCost_append (d : V → V → W) (a : V) (l1 : List V) (z : V) (l2 : List V) :
    openCost d a (l1 ++ z :: l2) = closeCost d a l1 z + openCost d z l2 := by
  induction l1 generalizing a with
  | nil => rfl
  | cons c l ih => rw [List.cons_append, closeCost, openCost, ih, add_assoc]

omit [LinearOrder V] in
theorem costs_sum (d : V → V → W) (a : V) (l : List V) (b : V) :
    (costs d a l b).sum = closeCost d a l b ∧ (costs d a l b).length = l.length + 1 := by
  induction l generalizing a with
  | nil => simp [costs, closeCost]
  | cons c l ih => rw [costs, closeCost, List.sum_cons, List.length_cons, (ih c).1, (ih c).2]; exact ⟨rfl, rfl⟩

omit [LinearOrder V] in
theorem costs_cases (d : V → V → W) {e : W} (a : V) (l : List V) (b : V) (h : e ∈ costs d a l b) :
    openCost d a l + e = closeCost d a l b ∨
      ∃ l1 z l2, l = l1 ++ z :: l2 ∧ closeCost d a l b = openCost d a l1 + e + closeCost d z l2 b := by
  induction l generalizing a with
  | nil =>
    rw [costs, List.mem_singleton] at h
    left
    rw [openCost, closeCost, h, zero_add]
  | cons c l ih =>
    rw [costs, List.mem_cons] at h
    rcases h with rfl | h
    · exact Or.inr ⟨[], c, l, rfl, by rw [openCost, zero_add, closeCost]⟩
    · rcases ih c h with h | ⟨l1, z, l2, h1, h2⟩
      · left; rw [openCost, closeCost, add_assoc, h]
      · exact Or.inr ⟨c :: l1, z, l2, by rw [h1]; rfl, by rw [closeCost, h2, openCost]; simp only [add_assoc]⟩

/-- A tour of the vertices `R` that starts at `y`. -/
def TreeTour (R : Finset V) (y : V) (rest : List V) : Prop := (y :: rest).Nodup ∧ (y :: rest).toFinset = R

theorem TreeTour.rotate {R : Finset V} {y z : V} {l1 l2 : List V} (h : TreeTour R y (l1 ++ z :: l2)) :
    TreeTour R z (l2 ++ y :: l1) := by
  have hp : (z :: (l2 ++ y :: l1)).Perm (y :: (l1 ++ z :: l2)) := by
    have : (z :: l2 ++ (y :: l1)).Perm ((y :: l1) ++ (z :: l2)) := List.perm_append_comm
    exact this
  exact ⟨hp.nodup_iff.2 h.1, by rw [List.toFinset_eq_of_perm _ _ hp]; exact h.2⟩

theorem TreeTour.at (d : V → V → W) {R : Finset V} {y : V} {rest : List V} (h : TreeTour R y rest) {z : V} (hz : z ∈ R) :
    ∃ rest', TreeTour R z rest' ∧ closeCost d z rest' z = closeCost d y rest y := by
  rw [← h.2, List.mem_toFinset, List.mem_cons] at hz
  rcases hz with rfl | hz
  · exact ⟨rest, h, rfl⟩
  · obtain ⟨l1, l2, rfl⟩ := List.append_of_mem hz
    exact ⟨_, h.rotate, by rw [closeCost_append, closeCost_append, add_comm]⟩

theorem TreeTour.card {R : Finset V} {y : V} {rest : List V} (h : TreeTour R y rest) : R.card = rest.length + 1 := by
  rw [← h.2, List.toFinset_card_of_nodup h.1, List.length_cons]

variable [LinearOrder W] [IsOrderedCancelAddMonoid W]

/-- Distances between the vertices of `C` that are at most the weights of the edges. -/
structure Metric (A : V → V → Option W) (C : Finset V) (d : V → V → W) : Prop where
  zero : ∀ x ∈ C, d x x = 0
  nonneg : ∀ x ∈ C, ∀ y ∈ C, 0 ≤ d x y
  symm : ∀ x ∈ C, ∀ y ∈ C, d x y = d y x
  triangle : ∀ x ∈ C, ∀ y ∈ C, ∀ z ∈ C, d x z ≤ d x y + d y z
  edge : ∀ x ∈ C, ∀ y ∈ C, ∀ w, A x y = some w → d x y ≤ w

omit [LinearOrder V] [IsOrderedCancelAddMonoid W] in
theorem Metric.mono {A : V → V → Option W} {C C' : Finset V} {d : V → V → W} (h : Metric A C d) (hs : C' ⊆ C) : Metric A C' d :=
  ⟨fun x hx => h.zero x (hs hx), fun x hx y hy => h.nonneg x (hs hx) y (hs hy), fun x hx y hy => h.symm x (hs hx) y (hs hy),
    fun x hx y hy z hz => h.triangle x (hs hx) y (hs hy) z (hs hz), fun x hx y hy => h.edge x (hs hx) y (hs hy)⟩

omit [LinearOrder V] in
theorem Metric.front {A : V → V → Option W} {C : Finset V} {d : V → V → W} (h : Metric A C d) {a a' b : V} {l : List V}
    (ha : a ∈ C) (ha' : a' ∈ C) (hb : b ∈ C) (hl : ∀ x ∈ l, x ∈ C) : closeCost d a l b ≤ d a a' + closeCost d a' l b := by
  cases l with
  | nil => exact h.triangle a ha a' ha' b hb
  | cons c l =>
    rw [closeCost, closeCost, ← add_assoc]
    exact add_le_add (h.triangle a ha a' ha' c (hl c List.mem_cons_self)) le_rfl

omit [LinearOrder V] in
theorem Metric.back {A : V → V → Option W} {C : Finset V} {d : V → V → W} (h : Metric A C d) {a b b' : V} {l : List V}
    (ha : a ∈ C) (hb : b ∈ C) (hb' : b' ∈ C) (hl : ∀ x ∈ l, x ∈ C) : closeCost d a l b ≤ closeCost d a l b' + d b' b := by
  induction l generalizing a with
  | nil => exact h.triangle a ha b' hb' b hb
  | cons c l ih =>
    rw [closeCost, closeCost, add_assoc]
    exact add_le_add le_rfl (ih (hl c List.mem_cons_self) (fun x hx => hl x (List.mem_cons_of_mem _ hx)))

/-- Around a tree there is a tour of any set of its vertices of at most twice the weight of the tree. -/
theorem exists_tour {A : V → V → Option W} {d : V → V → W} :
    ∀ (n : ℕ) (C : Finset V) (T : Finset (V × V)) (_ : C.card = n) (_ : SpanningTree A C T) (_ : Metric A C d)
      (R : Finset V) (_ : R ⊆ C) (y : V) (_ : y ∈ R), ∃ rest, TreeTour R y rest ∧ closeCost d y rest y ≤ 2 • totalWeight A T := by
  intro n
  induction n with
  | zero =>
    intro C T hn hT hm R hR y hy
    have := Finset.card_pos.2 ⟨y, hR hy⟩
    omega
  | succ n ih =>
    intro C T hn hT hm R hR y hy
    by_cases h1 : n = 0
    · subst h1
      have hC : C = {y} := Finset.eq_singleton_iff_unique_mem.2 ⟨hR hy, fun x hx => by
        obtain ⟨a, ha⟩ := Finset.card_eq_one.1 hn
        rw [ha, Finset.mem_singleton] at hx
        have := hR hy
        rw [ha, Finset.mem_singleton] at this
        rw [hx, this]⟩
      have hR' : R = {y} := by
        apply Finset.Subset.antisymm
        · rw [← hC]; exact hR
        · exact Finset.singleton_subset_iff.2 hy
      have hT0 : T = ∅ := by
        have := hT.card
        exact Finset.card_eq_zero.1 (by omega)
      refine ⟨[], ⟨List.nodup_singleton y, by rw [hR']; rfl⟩, ?_⟩
      rw [closeCost, hm.zero y (hR hy), hT0, totalWeight, Finset.sum_empty, nsmul_zero]
    · obtain ⟨x, hx, e, he, hex, hu⟩ := hT.exists_leaf (by omega)
      have hT' := hT.erase_leaf hx he hex hu
      have hm' := hm.mono (Finset.erase_subset x C)
      have hn' : (C.erase x).card = n := by rw [Finset.card_erase_of_mem hx]; omega
      -- the other end
      obtain ⟨z, hz, hzx, w, hw, hd, hsum⟩ : ∃ z ∈ C, z ≠ x ∧ ∃ w, A e.1 e.2 = some w ∧ d z x ≤ w ∧
          totalWeight A T = w + totalWeight A (T.erase e) := by
        obtain ⟨a, b⟩ := e
        obtain ⟨k1, k2, k3, w, k4⟩ := hT.edge a b he
        have hs : totalWeight A T = w + totalWeight A (T.erase (a, b)) := by
          rw [totalWeight, ← Finset.add_sum_erase _ _ he]
          dsimp only
          rw [k4]; rfl
        rcases hex with rfl | rfl
        · exact ⟨b, k3, (ne_of_lt k1).symm, w, k4, by rw [hm.symm b k3 a k2]; exact hm.edge a k2 b k3 w k4, hs⟩
        · exact ⟨a, k2, ne_of_lt k1, w, k4, hm.edge a k2 b k3 w k4, hs⟩
      have hw0 : 0 ≤ w := le_trans (hm.nonneg z hz x hx) hd
      have hzC : z ∈ C.erase x := Finset.mem_erase.2 ⟨hzx, hz⟩
      have hd' : d x z ≤ w := by rw [hm.symm x hx z hz]; exact hd
      have hfin : ∀ c : W, c ≤ 2 • totalWeight A (T.erase e) → w + (c + w) ≤ 2 • totalWeight A T := by
        intro c hc
        rw [hsum, nsmul_add, two_nsmul w, add_comm c w, ← add_assoc]
        exact add_le_add le_rfl hc
      by_cases hxR : x ∈ R
      · obtain ⟨rest, t1, t2⟩ := ih (C.erase x) (T.erase e) hn' hT' hm' (insert z (R.erase x))
          (Finset.insert_subset hzC (Finset.erase_subset_erase x hR)) z (Finset.mem_insert_self _ _)
        have hrest : ∀ u ∈ rest, u ∈ insert z (R.erase x) := by
          intro u hu
          rw [← t1.2, List.mem_toFinset]
          exact List.mem_cons_of_mem _ hu
        have hrC : ∀ u ∈ rest, u ∈ C := by
          intro u hu
          rcases Finset.mem_insert.1 (hrest u hu) with rfl | h
          · exact hz
          · exact hR (Finset.mem_of_mem_erase h)
        have hxr : x ∉ rest := by
          intro hh
          rcases Finset.mem_insert.1 (hrest x hh) with h | h
          · exact hzx h.symm
          · exact absurd rfl (Finset.mem_erase.1 h).1
        by_cases hzR : z ∈ R
        · have ht : TreeTour R z (x :: rest) := by
            refine ⟨?_, ?_⟩
            · rw [List.nodup_cons, List.nodup_cons, List.mem_cons]
              rw [TreeTour, List.nodup_cons] at t1
              exact ⟨fun h => h.elim hzx t1.1.1, hxr, t1.1.2⟩
            · rw [List.toFinset_cons, List.toFinset_cons, Finset.insert_comm, ← List.toFinset_cons, t1.2]
              ext u
              simp only [Finset.mem_insert, Finset.mem_erase]
              constructor
              · rintro (rfl | rfl | h)
                · exact hxR
                · exact hzR
                · exact h.2
              · intro h
                by_cases hux : u = x
                · exact Or.inl hux
                · exact Or.inr (Or.inr ⟨hux, h⟩)
          obtain ⟨r, hr1, hr2⟩ := ht.at d hy
          refine ⟨r, hr1, ?_⟩
          rw [hr2, closeCost]
          refine le_trans ?_ (hfin _ t2)
          refine add_le_add hd ?_
          rw [add_comm _ w]
          exact le_trans (hm.front hx hz hz hrC) (add_le_add hd' le_rfl)
        · have ht : TreeTour R x rest := by
            refine ⟨?_, ?_⟩
            · rw [List.nodup_cons]
              rw [TreeTour, List.nodup_cons] at t1
              exact ⟨hxr, t1.1.2⟩
            · have hzr : z ∉ rest := by
                rw [TreeTour, List.nodup_cons] at t1
                exact t1.1.1
              ext u
              have hh : u ∈ (z :: rest).toFinset ↔ u ∈ insert z (R.erase x) := by rw [t1.2]
              simp only [List.mem_toFinset, List.mem_cons, Finset.mem_insert, Finset.mem_erase] at hh
              rw [List.mem_toFinset, List.mem_cons]
              constructor
              · rintro (rfl | h)
                · exact hxR
                · rcases hh.1 (Or.inr h) with rfl | h'
                  · exact absurd h hzr
                  · exact h'.2
              · intro h
                by_cases hux : u = x
                · exact Or.inl hux
                · rcases hh.2 (Or.inr ⟨hux, h⟩) with rfl | h'
                  · exact absurd h hzR
                  · exact Or.inr h'
          obtain ⟨r, hr1, hr2⟩ := ht.at d hy
          refine ⟨r, hr1, ?_⟩
          rw [hr2]
          refine le_trans ?_ (hfin _ t2)
          refine le_trans (hm.front hx hz hx hrC) (add_le_add hd' ?_)
          exact le_trans (hm.back hz hx hz hrC) (add_le_add le_rfl hd)
      · have hR' : R ⊆ C.erase x := by
          intro u hu
          exact Finset.mem_erase.2 ⟨fun h => hxR (h ▸ hu), hR hu⟩
        obtain ⟨rest, t1, t2⟩ := ih (C.erase x) (T.erase e) hn' hT' hm' R hR' y hy
        refine ⟨rest, t1, le_trans t2 ?_⟩
        rw [hsum, nsmul_add]
        exact le_add_of_nonneg_left (nsmul_nonneg hw0 2)

/-- A path is a spanning tree of its vertices. -/
theorem path_tree {B : V → V → Option W} {R : Finset V} {d : V → V → W}
    (hB : ∀ x ∈ R, ∀ y ∈ R, x ≠ y → B x y = some (d x y)) (hd : ∀ x ∈ R, ∀ y ∈ R, d x y = d y x) :
    ∀ (rest : List V) (z : V), (z :: rest).Nodup → (∀ u ∈ z :: rest, u ∈ R) →
      ∃ T, SpanningTree B (z :: rest).toFinset T ∧ totalWeight B T = openCost d z rest := by
  intro rest
  induction rest with
  | nil =>
    intro z _ _
    refine ⟨∅, ⟨fun u v h => by simp at h, fun u hu v hv => ?_, by simp⟩, by rw [totalWeight, Finset.sum_empty, openCost]⟩
    simp at hu hv
    rw [hu, hv]; exact Joined.refl _ _
  | cons c l ih =>
    intro z hn hR
    rw [List.nodup_cons] at hn
    obtain ⟨T, h1, h2⟩ := ih c hn.2 (fun u hu => hR u (List.mem_cons_of_mem _ hu))
    have hzc : z ≠ c := fun e => hn.1 (e ▸ List.mem_cons_self)
    have hzR := hR z List.mem_cons_self
    have hcR := hR c (List.mem_cons_of_mem _ List.mem_cons_self)
    have hw : B (pair z c).1 (pair z c).2 = some (d z c) := by
      rcases pair_cases hzc with ⟨-, e⟩ | ⟨-, e⟩ <;> rw [e]
      · exact hB z hzR c hcR hzc
      · rw [hB c hcR z hzR hzc.symm, hd c hcR z hzR]
    obtain ⟨h3, h4⟩ := h1.insert_leaf (x := z) (y := c) (by rw [List.mem_toFinset]; exact hn.1)
      (by rw [List.mem_toFinset]; exact List.mem_cons_self) hw
    refine ⟨_, by rw [List.toFinset_cons]; exact h3, ?_⟩
    rw [totalWeight, Finset.sum_insert h4, hw, openCost, ← h2]; rfl

omit [LinearOrder V] in
theorem sum_bound {M S : W} (E : List W) (h : ∀ e ∈ E, M + e ≤ S) : E.length • M + E.sum ≤ E.length • S := by
  induction E with
  | nil => simp
  | cons e E ih =>
    rw [List.length_cons, List.sum_cons, succ_nsmul, succ_nsmul,
      show E.length • M + M + (e + E.sum) = (E.length • M + E.sum) + (M + e) by ac_rfl]
    exact add_le_add (ih (fun f hf => h f (List.mem_cons_of_mem _ hf))) (h e List.mem_cons_self)

/-- What is at most the weight of every spanning tree of the distance network of `R` is at most `2 (1 - 1 / |R|)` times the
weight of any tree with the vertices `R`. -/
theorem approximation {A B : V → V → Option W} {C R : Finset V} {T : Finset (V × V)} {d : V → V → W} (hT : SpanningTree A C T)
    (hm : Metric A C d) (hR : R ⊆ C) (hne : R.Nonempty) (hB : ∀ x ∈ R, ∀ y ∈ R, x ≠ y → B x y = some (d x y)) {M : W}
    (hM : ∀ T', SpanningTree B R T' → M ≤ totalWeight B T') :
    R.card • M ≤ (2 * (R.card - 1)) • totalWeight A T := by
  obtain ⟨y, hy⟩ := hne
  obtain ⟨rest, t1, t2⟩ := exists_tour C.card C T rfl hT hm R hR y hy
  have hd : ∀ x ∈ R, ∀ y ∈ R, d x y = d y x := fun x hx y hy => hm.symm x (hR hx) y (hR hy)
  have hpath : ∀ z l, TreeTour R z l → M ≤ openCost d z l := by
    intro z l hl
    obtain ⟨T', h1, h2⟩ := path_tree hB hd l z hl.1 (fun u hu => by rw [← hl.2, List.mem_toFinset]; exact hu)
    rw [← h2]
    exact hM T' (by rw [← hl.2]; exact h1)
  have hE : ∀ e ∈ costs d y rest y, M + e ≤ closeCost d y rest y := by
    intro e he
    rcases costs_cases d y rest y he with h | ⟨l1, z, l2, rfl, h⟩
    · rw [← h]; exact add_le_add (hpath y rest t1) le_rfl
    · have := hpath z _ t1.rotate
      rw [openCost_append] at this
      rw [h, show openCost d y l1 + e + closeCost d z l2 y = closeCost d z l2 y + openCost d y l1 + e by ac_rfl]
      exact add_le_add this le_rfl
  have hs := sum_bound _ hE
  rw [(costs_sum d y rest y).1, (costs_sum d y rest y).2, ← t1.card] at hs
  have hc := t1.card
  have : R.card • closeCost d y rest y = (R.card - 1) • closeCost d y rest y + closeCost d y rest y := by
    rw [← succ_nsmul]; congr 1; omega
  rw [this] at hs
  refine le_trans (le_of_add_le_add_right hs) ?_
  rw [mul_comm, mul_nsmul']
  exact nsmul_le_nsmul_right t2 _

/-! ### Growing a tree -/

/-- `c` has been paid for reaching the vertices `S`: from every spanning tree edges of at least this weight can be removed
so that all vertices are still joined to `S`. -/
def Paid (B : V → V → Option W) (R S : Finset V) (c : W) : Prop :=
  ∀ T, SpanningTree B R T → ∃ T' ⊆ T, c + totalWeight B T' ≤ totalWeight B T ∧ ∀ r ∈ R, ∃ s ∈ S, Joined T' r s

omit [IsOrderedCancelAddMonoid W] in
theorem paid_start (B : V → V → Option W) {R : Finset V} {x : V} (hx : x ∈ R) : Paid B R {x} 0 :=
  fun T hT => ⟨T, Finset.Subset.refl _, by rw [zero_add], fun r hr => ⟨x, Finset.mem_singleton_self x, hT.joined r hr x hx⟩⟩

theorem Paid.step {B : V → V → Option W} {R S : Finset V} {c : W} (h : Paid B R S c) {u : V} (hu : u ∈ R) (huS : u ∉ S) {x : W}
    (hx : ∀ a b w, a ∈ R → b ∈ R → (a ∈ S ∧ b ∉ S ∨ a ∉ S ∧ b ∈ S) → B a b = some w → x ≤ w) : Paid B R (insert u S) (c + x) := by
  classical
  intro T hT
  obtain ⟨T', hsub, hle, hj⟩ := h T hT
  obtain ⟨s, hs, hus⟩ := hj u hu
  have hout : ∀ a, Joined (T'.filter (fun e => e.1 ∉ S ∧ e.2 ∉ S)) u a → a ∉ S := by
    intro a ha
    have := ha.const (fun a => a ∈ S) (fun a b hab => by
      rw [Finset.mem_filter] at hab
      rw [eq_iff_iff]
      exact ⟨fun e => absurd e hab.2.1, fun e => absurd e hab.2.2⟩)
    rw [eq_iff_iff] at this
    exact fun h => huS (this.2 h)
  -- an edge that leaves the component of `u`
  obtain ⟨f, hf, hfa⟩ : ∃ f ∈ T', (Joined (T'.filter (fun e => e.1 ∉ S ∧ e.2 ∉ S)) u f.1 ∧ f.2 ∈ S) ∨
      (Joined (T'.filter (fun e => e.1 ∉ S ∧ e.2 ∉ S)) u f.2 ∧ f.1 ∈ S) := by
    by_contra hc
    push Not at hc
    have := hus.const (fun a => Joined (T'.filter (fun e => e.1 ∉ S ∧ e.2 ∉ S)) u a) (fun a b hab => by
      obtain ⟨c1, c2⟩ := hc _ hab
      dsimp only at c1 c2
      rw [eq_iff_iff]
      constructor
      · intro h1
        exact h1.trans (Joined.of_mem (Finset.mem_filter.2 ⟨hab, hout a h1, c1 h1⟩))
      · intro h1
        exact h1.trans (Joined.of_mem (Finset.mem_filter.2 ⟨hab, c2 h1, hout b h1⟩)).symm)
    rw [eq_iff_iff] at this
    exact hout s (this.1 (Joined.refl _ _)) hs
  have hfsub : T'.filter (fun e => e.1 ∉ S ∧ e.2 ∉ S) ⊆ T'.erase f := by
    intro e he
    rw [Finset.mem_filter] at he
    rw [Finset.mem_erase]
    refine ⟨?_, he.1⟩
    rintro rfl
    rcases hfa with h | h
    · exact he.2.2 h.2
    · exact he.2.1 h.2
  obtain ⟨a, b⟩ := f
  obtain ⟨-, haR, hbR, w, hw⟩ := hT.edge a b (hsub hf)
  have hxw : x ≤ w := by
    apply hx a b w haR hbR _ hw
    rcases hfa with h | h
    · exact Or.inr ⟨hout _ h.1, h.2⟩
    · exact Or.inl ⟨h.2, hout _ h.1⟩
  refine ⟨T'.erase (a, b), (Finset.erase_subset _ _).trans hsub, ?_, fun r hr => ?_⟩
  · have hs : totalWeight B T' = w + totalWeight B (T'.erase (a, b)) := by
      rw [totalWeight, ← Finset.add_sum_erase _ _ hf]
      dsimp only
      rw [hw]; rfl
    refine le_trans ?_ hle
    rw [hs, add_assoc]
    exact add_le_add le_rfl (add_le_add hxw le_rfl)
  · obtain ⟨s', hs', hjs⟩ := hj r hr
    rw [← Finset.insert_erase hf] at hjs
    rcases joined_insert.1 hjs with h1 | ⟨h1, h2⟩ | ⟨h1, h2⟩
    · exact ⟨s', Finset.mem_insert_of_mem hs', h1⟩
    · rcases hfa with h | h
      · exact ⟨u, Finset.mem_insert_self _ _, h1.trans (h.1.mono hfsub).symm⟩
      · exact ⟨a, Finset.mem_insert_of_mem h.2, h1⟩
    · rcases hfa with h | h
      · exact ⟨b, Finset.mem_insert_of_mem h.2, h1⟩
      · exact ⟨u, Finset.mem_insert_self _ _, h1.trans (h.1.mono hfsub).symm⟩

theorem Paid.final_of {B : V → V → Option W} {R S : Finset V} {c : W} (h : Paid B R S c)
    (h0 : ∀ a ∈ R, ∀ b ∈ R, ∀ w, B a b = some w → 0 ≤ w) {T : Finset (V × V)} (hT : SpanningTree B R T) : c ≤ totalWeight B T := by
  obtain ⟨T', hsub, hle, -⟩ := h T hT
  refine le_trans (le_add_of_nonneg_right ?_) hle
  apply Finset.sum_nonneg
  rintro ⟨a, b⟩ hab
  obtain ⟨-, h1, h2, w, hw⟩ := hT.edge a b (hsub hab)
  dsimp only
  rw [hw]
  exact h0 a h1 b h2 w hw

end Rosemary.Spec
