import Verif.Lemmas.IndependentSets
import Mathlib.Algebra.BigOperators.Field
import Mathlib.Algebra.Order.BigOperators.Ring.Finset
import Mathlib.Data.Rat.Defs
import Mathlib.Tactic.Linarith
import Mathlib.Tactic.Ring
import Mathlib.Tactic.Positivity

/-!
# The minimum-degree greedy algorithm: quality of the independent set

The argument of Halldorsson and Radhakrishnan for the performance ratio `(d + 2) / 3`.
-/

namespace Rosemary.IndependentSets

open Rosemary.Graph Rosemary.Spec Rosemary.Cliques
open Rosemary.Traversal (E)

variable {V W : Type} [DecidableEq V]

/-- `l` can be chosen from the vertices `S` by taking a vertex of least degree and removing it with its neighbors. -/
inductive MinDegreeRun (N : V → Finset V) : Finset V → List V → Prop
  | nil : MinDegreeRun N ∅ []
  | cons {S : Finset V} {v : V} {l : List V} : v ∈ S → (∀ w ∈ S, (N v ∩ S).card ≤ (N w ∩ S).card) →
      MinDegreeRun N (S \ insert v (N v)) l → MinDegreeRun N S (v :: l)

omit [DecidableEq V] in
theorem ratio_ineq {d : ℤ} (hd : 1 ≤ d) : ∃ c : ℤ, 0 < c ∧ ∀ k i : ℤ,
    c * (3 * i - (d + 2)) ≤ 12 * (k * (k - 1) - i * (k - i) - d * (k - i)) := by
  have key : ∀ k i : ℤ, 12 * (k * (k - 1) - i * (k - i) - d * (k - i)) =
      3 * (2 * k - i - d - 1) ^ 2 + (3 * i - (d + 2)) ^ 2 + (4 * d + 2) * (3 * i - (d + 2)) - 3 := by
    intro k i; ring
  have sqpos : ∀ x : ℤ, x % 2 = 1 → 1 ≤ x ^ 2 := by
    intro x hx
    have : x ≠ 0 := by rintro rfl; simp at hx
    rcases lt_or_gt_of_ne this with h | h <;> nlinarith
  rcases (by omega : d % 3 = 0 ∨ d % 3 = 1 ∨ d % 3 = 2) with h | h | h
  · refine ⟨4 * d, by omega, fun k i => ?_⟩
    rw [key]
    obtain ⟨m, hm⟩ : ∃ m, m = 3 * i - (d + 2) := ⟨_, rfl⟩
    rw [← hm]
    have h3 : m % 3 = 1 := by omega
    by_cases h2 : m = -2
    · have := sqpos (2 * k - i - d - 1) (by omega)
      subst h2; nlinarith
    · have : m + 1 ≥ 2 ∨ m + 1 ≤ -2 := by omega
      have h4 : 4 ≤ (m + 1) ^ 2 := by rcases this with h | h <;> nlinarith
      nlinarith [sq_nonneg (2 * k - i - d - 1)]
  · refine ⟨4 * d + 2, by omega, fun k i => ?_⟩
    rw [key]
    obtain ⟨m, hm⟩ : ∃ m, m = 3 * i - (d + 2) := ⟨_, rfl⟩
    rw [← hm]
    by_cases h2 : m = 0
    · have := sqpos (2 * k - i - d - 1) (by omega)
      subst h2; nlinarith
    · have : m ≥ 3 ∨ m ≤ -3 := by omega
      have h4 : 9 ≤ m ^ 2 := by rcases this with h | h <;> nlinarith
      nlinarith [sq_nonneg (2 * k - i - d - 1)]
  · refine ⟨4 * d + 4, by omega, fun k i => ?_⟩
    rw [key]
    obtain ⟨m, hm⟩ : ∃ m, m = 3 * i - (d + 2) := ⟨_, rfl⟩
    rw [← hm]
    by_cases h2 : m = 2
    · have := sqpos (2 * k - i - d - 1) (by omega)
      subst h2; nlinarith
    · have : m - 1 ≥ 2 ∨ m - 1 ≤ -2 := by omega
      have h4 : 4 ≤ (m - 1) ^ 2 := by rcases this with h | h <;> nlinarith
      nlinarith [sq_nonneg (2 * k - i - d - 1)]

/-- The degrees of the vertices outside of `I` decrease by at least `k (k - 1) - i (k - i)` when `k` vertices, `i` of
them in `I`, are removed in one step. -/
theorem run_step {N : V → Finset V} (hsymm : ∀ u v, u ∈ N v ↔ v ∈ N u) (hirr : ∀ v, v ∉ N v) {I : Finset V}
    (hI : ∀ u ∈ I, ∀ v ∈ I, v ∉ N u) {S : Finset V} {v : V} (hv : v ∈ S)
    (hmin : ∀ w ∈ S, (N v ∩ S).card ≤ (N w ∩ S).card) :
    ((∑ b ∈ (S \ insert v (N v)) \ I, (N b ∩ (S \ insert v (N v))).card : ℕ) : ℤ) +
      (((S ∩ insert v (N v)).card : ℤ) * ((S ∩ insert v (N v)).card - 1) -
        ((S ∩ insert v (N v)) ∩ I).card * ((S ∩ insert v (N v)).card - ((S ∩ insert v (N v)) ∩ I).card)) ≤
      ((∑ b ∈ S \ I, (N b ∩ S).card : ℕ) : ℤ) := by
  obtain ⟨R, hR⟩ : ∃ R, R = S ∩ insert v (N v) := ⟨_, rfl⟩
  have hRS : R ⊆ S := by rw [hR]; exact Finset.inter_subset_left
  have hS' : S \ insert v (N v) = S \ R := by rw [hR]; ext x; simp
  have hk : R.card = (N v ∩ S).card + 1 := by
    have : R = insert v (N v ∩ S) := by
      rw [hR]; ext x
      simp only [Finset.mem_inter, Finset.mem_insert]
      constructor
      · rintro ⟨h1, h2 | h2⟩
        · exact Or.inl h2
        · exact Or.inr ⟨h2, h1⟩
      · rintro (rfl | h)
        · exact ⟨hv, Or.inl rfl⟩
        · exact ⟨h.2, Or.inr h.1⟩
    rw [this, Finset.card_insert_of_notMem (by simp [hirr])]
  rw [← hR, hS']
  -- the vertices outside of `I`
  have hsplit : S \ I = (R \ I) ∪ ((S \ R) \ I) := by
    ext x
    simp only [Finset.mem_union, Finset.mem_sdiff]
    constructor
    · rintro ⟨h1, h2⟩
      by_cases h : x ∈ R
      · exact Or.inl ⟨h, h2⟩
      · exact Or.inr ⟨⟨h1, h⟩, h2⟩
    · rintro (h | h)
      · exact ⟨hRS h.1, h.2⟩
      · exact ⟨h.1.1, h.2⟩
  have hdisj : Disjoint (R \ I) ((S \ R) \ I) := by
    rw [Finset.disjoint_left]
    intro x h1 h2
    simp only [Finset.mem_sdiff] at h1 h2
    exact h2.1.2 h1.1
  rw [hsplit, Finset.sum_union hdisj]
  have hB : (R \ I).card * (R.card - 1) ≤ ∑ b ∈ R \ I, (N b ∩ S).card := by
    rw [← smul_eq_mul]
    refine Finset.card_nsmul_le_sum _ _ _ fun b hb => ?_
    have := hmin b (hRS (Finset.mem_sdiff.1 hb).1)
    omega
  have hB' : ∑ b ∈ (S \ R) \ I, (N b ∩ (S \ R)).card + ∑ b ∈ (S \ R) \ I, (N b ∩ (R ∩ I)).card ≤
      ∑ b ∈ (S \ R) \ I, (N b ∩ S).card := by
    rw [← Finset.sum_add_distrib]
    refine Finset.sum_le_sum fun b _ => ?_
    rw [← Finset.card_union_of_disjoint]
    · refine Finset.card_le_card ?_
      intro x hx
      simp only [Finset.mem_union, Finset.mem_inter, Finset.mem_sdiff] at hx ⊢
      rcases hx with h | h
      · exact ⟨h.1, h.2.1⟩
      · exact ⟨h.1, hRS h.2.1⟩
    · rw [Finset.disjoint_left]
      intro x h1 h2
      simp only [Finset.mem_inter, Finset.mem_sdiff] at h1 h2
      exact h1.2.2 h2.2.1
  have hswap : ∑ b ∈ (S \ R) \ I, (N b ∩ (R ∩ I)).card = ∑ a ∈ R ∩ I, (N a ∩ ((S \ R) \ I)).card := by
    have e1 : ∀ b, (N b ∩ (R ∩ I)).card = ∑ a ∈ R ∩ I, if a ∈ N b then 1 else 0 := by
      intro b
      rw [← Finset.card_filter]
      congr 1
      ext x; simp [Finset.mem_filter, and_comm]
    have e2 : ∀ a, (N a ∩ ((S \ R) \ I)).card = ∑ b ∈ (S \ R) \ I, if a ∈ N b then 1 else 0 := by
      intro a
      rw [← Finset.card_filter]
      congr 1
      ext x
      rw [Finset.mem_inter, Finset.mem_filter, hsymm x a, and_comm]
    simp only [e1, e2]
    exact Finset.sum_comm
  have hA : (R ∩ I).card * (R.card - 1) ≤
      ∑ a ∈ R ∩ I, (N a ∩ ((S \ R) \ I)).card + (R ∩ I).card * (R \ I).card := by
    rw [← smul_eq_mul (R ∩ I).card (R \ I).card, ← Finset.sum_const, ← Finset.sum_add_distrib, ← smul_eq_mul]
    refine Finset.card_nsmul_le_sum _ _ _ fun a ha => ?_
    have haI := (Finset.mem_inter.1 ha).2
    have h1 := hmin a (hRS (Finset.mem_inter.1 ha).1)
    have h2 : (N a ∩ S).card ≤ (N a ∩ ((S \ R) \ I)).card + (R \ I).card := by
      refine le_trans (Finset.card_le_card (t := (N a ∩ ((S \ R) \ I)) ∪ (R \ I)) ?_) (Finset.card_union_le _ _)
      intro x hx
      have hx1 := (Finset.mem_inter.1 hx).1
      have hxI : x ∉ I := fun h => hI a haI x h hx1
      simp only [Finset.mem_union, Finset.mem_inter, Finset.mem_sdiff]
      by_cases h : x ∈ R
      · exact Or.inr ⟨h, hxI⟩
      · exact Or.inl ⟨hx1, ⟨(Finset.mem_inter.1 hx).2, h⟩, hxI⟩
    omega
  have hcard : (R \ I).card + (R ∩ I).card = R.card := Finset.card_sdiff_add_card_inter _ _
  have hone : 1 ≤ R.card := by omega
  rw [hswap] at hB'
  obtain ⟨e, he⟩ : ∃ e, R.card = e + 1 := ⟨R.card - 1, by omega⟩
  rw [he, Nat.add_sub_cancel] at hA hB
  rw [he] at hcard ⊢
  push_cast
  zify at hA hB hB' hcard
  have hc' : ((R \ I).card : ℤ) = e + 1 - (R ∩ I).card := by linarith
  rw [hc'] at hA hB
  nlinarith

/-- The run finds at least `3 / (d + 2)` times as many vertices as any independent set has. -/
theorem run_ratio {N : V → Finset V} (hsymm : ∀ u v, u ∈ N v ↔ v ∈ N u) (hirr : ∀ v, v ∉ N v) {I : Finset V}
    (hI : ∀ u ∈ I, ∀ v ∈ I, v ∉ N u) {c d : ℤ}
    (hc : ∀ k i : ℤ, c * (3 * i - (d + 2)) ≤ 12 * (k * (k - 1) - i * (k - i) - d * (k - i))) {S : Finset V} {l : List V}
    (h : MinDegreeRun N S l) :
    c * (3 * (S ∩ I).card - (d + 2) * l.length) + 12 * d * (S \ I).card ≤
      12 * ((∑ b ∈ S \ I, (N b ∩ S).card : ℕ) : ℤ) := by
  induction h with
  | nil => simp
  | @cons S v l hv hmin _ ih =>
    have h1 := run_step hsymm hirr hI hv hmin
    have h2 := hc (S ∩ insert v (N v)).card ((S ∩ insert v (N v)) ∩ I).card
    have c1 : ((S \ insert v (N v)) ∩ I).card + ((S ∩ insert v (N v)) ∩ I).card = (S ∩ I).card := by
      have := Finset.card_sdiff_add_card_inter (S ∩ I) (insert v (N v))
      rw [← this]
      congr 2 <;> ext x <;> simp only [Finset.mem_inter, Finset.mem_sdiff] <;> tauto
    have c2 : ((S \ insert v (N v)) \ I).card + ((S ∩ insert v (N v)) \ I).card = (S \ I).card := by
      have := Finset.card_sdiff_add_card_inter (S \ I) (insert v (N v))
      rw [← this]
      congr 2 <;> ext x <;> simp only [Finset.mem_inter, Finset.mem_sdiff] <;> tauto
    have c3 : ((S ∩ insert v (N v)) \ I).card + ((S ∩ insert v (N v)) ∩ I).card = (S ∩ insert v (N v)).card :=
      Finset.card_sdiff_add_card_inter _ _
    zify at c1 c2 c3
    rw [← c1, ← c2, List.length_cons]
    push_cast at ih h1 h2 ⊢
    have c4 : (((S ∩ insert v (N v)) \ I).card : ℤ) =
      (S ∩ insert v (N v)).card - ((S ∩ insert v (N v)) ∩ I).card := by linarith
    rw [c4]
    nlinarith

/-- The bound of Caro and Wei. -/
theorem run_caro_wei {N : V → Finset V} (hirr : ∀ v, v ∉ N v) {S : Finset V} {l : List V} (h : MinDegreeRun N S l) :
    ∑ v ∈ S, (1 : ℚ) / ((N v).card + 1) ≤ l.length := by
  induction h with
  | nil => simp
  | @cons S v l hv hmin _ ih =>
    have hk : (S ∩ insert v (N v)).card = (N v ∩ S).card + 1 := by
      have : S ∩ insert v (N v) = insert v (N v ∩ S) := by
        ext x
        simp only [Finset.mem_inter, Finset.mem_insert]
        constructor
        · rintro ⟨h1, h2 | h2⟩
          · exact Or.inl h2
          · exact Or.inr ⟨h2, h1⟩
        · rintro (rfl | h)
          · exact ⟨hv, Or.inl rfl⟩
          · exact ⟨h.2, Or.inr h.1⟩
      rw [this, Finset.card_insert_of_notMem (by simp [hirr])]
    have hsum : ∑ w ∈ S ∩ insert v (N v), (1 : ℚ) / ((N w).card + 1) ≤ 1 := by
      have : ∀ w ∈ S ∩ insert v (N v), (1 : ℚ) / ((N w).card + 1) ≤ 1 / ((N v ∩ S).card + 1) := by
        intro w hw
        have h1 := hmin w (Finset.mem_inter.1 hw).1
        have h2 : (N w ∩ S).card ≤ (N w).card := Finset.card_le_card Finset.inter_subset_left
        refine one_div_le_one_div_of_le (by positivity) ?_
        have : (N v ∩ S).card ≤ (N w).card := h1.trans h2
        have : ((N v ∩ S).card : ℚ) ≤ (N w).card := by exact_mod_cast this
        linarith
      refine (Finset.sum_le_card_nsmul _ _ _ this).trans (le_of_eq ?_)
      rw [hk, nsmul_eq_mul]
      push_cast
      field_simp
    rw [← Finset.sum_sdiff (Finset.inter_subset_left : S ∩ insert v (N v) ⊆ S), List.length_cons]
    have e : S \ (S ∩ insert v (N v)) = S \ insert v (N v) := by ext x; simp
    rw [e]
    push_cast
    linarith

/-! ## The loop of `greedy` -/

theorem minDegree_le (g : Graph V W) (S : Finset V) (l : List V) {u : V} (hu : u ∈ l) :
    minDegree g S l ≤ degreeOf g u := by
  have mono : ∀ (l : List V) (m : ℕ), l.foldl (fun m u => if degreeOf g u < m then degreeOf g u else m) m ≤ m ∧
      ∀ u ∈ l, l.foldl (fun m u => if degreeOf g u < m then degreeOf g u else m) m ≤ degreeOf g u := by
    intro l
    induction l with
    | nil => intro m; simp
    | cons a l ih =>
      intro m
      rw [List.foldl_cons]
      obtain ⟨h1, h2⟩ := ih (if degreeOf g a < m then degreeOf g a else m)
      refine ⟨h1.trans (by split <;> omega), ?_⟩
      intro u hu
      rcases List.mem_cons.1 hu with rfl | hu
      · exact h1.trans (by split <;> omega)
      · exact h2 u hu
  exact (mono l _).2 u hu

theorem greedyLoop_run {ord : Finset V → List V} (hord : ∀ S, (ord S).Nodup ∧ ∀ x, x ∈ ord S ↔ x ∈ S)
    {pick : List V → List V → V} (hpick : ∀ acc l, l ≠ [] → pick acc l ∈ l) {g0 : Graph V W} (n : ℕ) :
    ∀ (acc : List V) (g : Graph V W) (l : List V), Good g → (vertexSet g).card ≤ n →
    (∀ u v, E g u v ↔ Mem g u ∧ Mem g v ∧ E g0 u v) → greedyLoop ord pick n acc g = .ok l →
    ∃ l', l = acc ++ l' ∧ MinDegreeRun (nb g0) (vertexSet g) l' := by
  induction n with
  | zero =>
    intro acc g l hg hc _ h
    have he : vertexSet g = ∅ := Finset.card_eq_zero.1 (by omega)
    rw [greedyLoop] at h
    cases h
    exact ⟨[], by simp, by rw [he]; exact .nil⟩
  | succ n ih =>
    intro acc g l hg hc hE h
    rw [greedyLoop] at h
    by_cases he : vertexSet g = ∅
    · rw [if_pos he] at h
      cases h
      exact ⟨[], by simp, by rw [he]; exact .nil⟩
    · rw [if_neg he] at h
      dsimp only at h
      by_cases hcne : (ord (vertexSet g)).filter
          (fun u => degreeOf g u = minDegree g (vertexSet g) (ord (vertexSet g))) = []
      · rw [if_pos hcne] at h; cases h
      rw [if_neg hcne] at h
      have hv := hpick acc _ hcne
      generalize pick acc _ = v at hv h
      have hvS := ((hord _).2 v).1 (List.mem_filter.1 hv).1
      have hvg : Mem g v := Graph.mem_vertexSet.1 hvS
      have hg1 := hg.deleteVertex v
      have hmem' : ∀ x, Mem (deleteVertices (deleteVertex g v) (ord (nb g v))) x ↔ Mem g x ∧ x ≠ v ∧ ¬ E g v x := by
        intro x
        rw [mem_deleteVertices hg1, mem_deleteVertex hg, (hord _).2, mem_nb]
        tauto
      have hlt : (vertexSet (deleteVertices (deleteVertex g v) (ord (nb g v)))).card < (vertexSet g).card := by
        refine Finset.card_lt_card ⟨?_, fun hs => ?_⟩
        · intro x hx
          exact Graph.mem_vertexSet.2 ((hmem' x).1 (Graph.mem_vertexSet.1 hx)).1
        · have := hs hvS
          exact ((hmem' v).1 (Graph.mem_vertexSet.1 this)).2.1 rfl
      have hdeg : ∀ w ∈ vertexSet g, degreeOf g w = (nb g0 w ∩ vertexSet g).card := by
        intro w hw
        have hw' := Graph.mem_vertexSet.1 hw
        rw [degreeOf_eq hw', ← List.toFinset_card_of_nodup (nodup_nbrs hg w)]
        congr 1
        ext x
        rw [Finset.mem_inter, mem_nb, Graph.mem_vertexSet, List.mem_toFinset]
        have := hE w x
        constructor
        · intro hx
          have := (hE w x).1 hx
          exact ⟨this.2.2, this.2.1⟩
        · rintro ⟨h1, h2⟩
          exact (hE w x).2 ⟨hw', h2, h1⟩
      have hE' : ∀ u w, E (deleteVertices (deleteVertex g v) (ord (nb g v))) u w ↔
          Mem (deleteVertices (deleteVertex g v) (ord (nb g v))) u ∧
          Mem (deleteVertices (deleteVertex g v) (ord (nb g v))) w ∧ E g0 u w := by
        intro a b
        have key : E (deleteVertices (deleteVertex g v) (ord (nb g v))) a b ↔
            (Mem (deleteVertices (deleteVertex g v) (ord (nb g v))) a ∧
              Mem (deleteVertices (deleteVertex g v) (ord (nb g v))) b) ∧ E g a b := by
          rw [hmem', hmem', E, mem_nbrs, adj_deleteVertices hg1, adj_deleteVertex hg]
          constructor
          · rintro ⟨w, hw⟩
            split at hw
            · simp at hw
            · rename_i hn1
              split at hw
              · simp at hw
              · rename_i hn2
                rw [not_or, (hord _).2, (hord _).2, mem_nb, mem_nb] at hn1
                rw [not_or] at hn2
                have hab : E g a b := mem_nbrs.2 ⟨w, hw⟩
                exact ⟨⟨⟨E_mem hg ((E_symm hg).1 hab), hn2.1, hn1.1⟩, E_mem hg hab, hn2.2, hn1.2⟩, hab⟩
          · rintro ⟨⟨⟨a1, a2, a3⟩, b1, b2, b3⟩, hab⟩
            obtain ⟨w, hw⟩ := mem_nbrs.1 hab
            refine ⟨w, ?_⟩
            rw [if_neg, if_neg, hw]
            · rw [not_or]; exact ⟨a2, b2⟩
            · rw [not_or, (hord _).2, (hord _).2, mem_nb, mem_nb]; exact ⟨a3, b3⟩
        rw [key, hE]
        constructor
        · rintro ⟨⟨h1, h2⟩, -, -, h3⟩
          exact ⟨h1, h2, h3⟩
        · rintro ⟨h1, h2, h3⟩
          exact ⟨⟨h1, h2⟩, ((hmem' a).1 h1).1, ((hmem' b).1 h2).1, h3⟩
      obtain ⟨l', h1, h2⟩ := ih _ _ l (hg1.deleteVertices _) (by omega) hE' h
      refine ⟨v :: l', by rw [h1]; simp, .cons hvS ?_ ?_⟩
      · intro w hw
        rw [← hdeg v hvS, ← hdeg w hw]
        have e := (List.mem_filter.1 hv).2
        simp only [decide_eq_true_eq] at e
        rw [e]
        exact minDegree_le g _ _ (((hord _).2 w).2 hw)
      · have : vertexSet (deleteVertices (deleteVertex g v) (ord (nb g v))) = vertexSet g \ insert v (nb g0 v) := by
          ext x
          rw [Finset.mem_sdiff, Finset.mem_insert, mem_nb, Graph.mem_vertexSet, Graph.mem_vertexSet, hmem']
          have := hE v x
          tauto
        rw [← this]
        exact h2

end Rosemary.IndependentSets
