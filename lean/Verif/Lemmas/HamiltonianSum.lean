import Verif.Lemmas.HamiltonianPaths
import Mathlib.Algebra.BigOperators.Ring.Finset
import Mathlib.Combinatorics.Enumerative.DoubleCounting
import Mathlib.Data.Nat.Choose.Sum

/-!
# The count of Hamiltonian paths by inclusion and exclusion
-/

namespace Rosemary.HamiltonianPaths

open Rosemary.Graph Rosemary.Spec Rosemary.Cliques
open Rosemary.Traversal (E)

variable {V W : Type} [DecidableEq V]

/-! ## Walks -/

/-- One step of the loop. -/
def stepW (g : Graph V W) (S : Finset V) (f : V → ℕ) : V → ℕ := fun u => ∑ v ∈ nb g u ∩ S, f v

theorem walksLoop_succ (g : Graph V W) (S : Finset V) (k : ℕ) : ∀ f,
    walksLoop g S (k + 1) f = stepW g S (walksLoop g S k f) := by
  induction k with
  | zero => intro f; rfl
  | succ k ih =>
    intro f
    rw [walksLoop, ih]
    rfl

theorem walksLoop_congr (g : Graph V W) (S : Finset V) (k : ℕ) : ∀ f h : V → ℕ, (∀ v ∈ S, f v = h v) →
    ∀ u ∈ S, walksLoop g S k f u = walksLoop g S k h u := by
  induction k with
  | zero => intro f h hfh u hu; exact hfh u hu
  | succ k ih =>
    intro f h hfh u _
    rw [walksLoop_succ, walksLoop_succ, stepW, stepW]
    exact Finset.sum_congr rfl (fun v hv => ih f h hfh v (Finset.mem_inter.1 hv).2)

theorem walksLoop_sum (g : Graph V W) (S T : Finset V) (k : ℕ) (f : V → V → ℕ) : ∀ u,
    ∑ a ∈ T, walksLoop g S k (f a) u = walksLoop g S k (fun v => ∑ a ∈ T, f a v) u := by
  induction k with
  | zero => intro u; rfl
  | succ k ih =>
    intro u
    rw [walksLoop_succ, stepW]
    simp only [walksLoop_succ, stepW]
    rw [Finset.sum_comm]
    exact Finset.sum_congr rfl (fun v _ => ih v)

/-- The walks with `k` steps from `u` whose further vertices belong to `S`. -/
def wk (g : Graph V W) (S : Finset V) : ℕ → V → Finset (List V)
  | 0, u => {[u]}
  | k + 1, u => (nb g u ∩ S).biUnion (fun v => (wk g S k v).image (List.cons u))

theorem mem_wk (g : Graph V W) (S : Finset V) (k : ℕ) : ∀ u l, l ∈ wk g S k u ↔
    ∃ t, l = u :: t ∧ t.length = k ∧ l.IsChain (E g) ∧ ∀ v ∈ t, v ∈ S := by
  induction k with
  | zero =>
    intro u l
    rw [wk, Finset.mem_singleton]
    constructor
    · rintro rfl; exact ⟨[], rfl, rfl, by simp, by simp⟩
    · rintro ⟨t, rfl, ht, -, -⟩
      rw [List.length_eq_zero_iff.1 ht]
  | succ k ih =>
    intro u l
    rw [wk, Finset.mem_biUnion]
    constructor
    · rintro ⟨v, hv, hl⟩
      obtain ⟨m, hm, rfl⟩ := Finset.mem_image.1 hl
      obtain ⟨t, rfl, t1, t2, t3⟩ := (ih v m).1 hm
      rw [Finset.mem_inter, mem_nb] at hv
      refine ⟨v :: t, rfl, by simp [t1], List.isChain_cons_cons.2 ⟨hv.1, t2⟩, ?_⟩
      intro w hw
      rcases List.mem_cons.1 hw with rfl | hw
      · exact hv.2
      · exact t3 w hw
    · rintro ⟨t, rfl, t1, t2, t3⟩
      cases t with
      | nil => simp at t1
      | cons v t =>
        rw [List.isChain_cons_cons] at t2
        refine ⟨v, Finset.mem_inter.2 ⟨mem_nb.2 t2.1, t3 v List.mem_cons_self⟩, Finset.mem_image.2 ⟨v :: t, ?_, rfl⟩⟩
        exact (ih v _).2 ⟨t, rfl, by simpa using t1, t2.2, fun w hw => t3 w (List.mem_cons_of_mem _ hw)⟩

theorem card_wk (g : Graph V W) (S : Finset V) (k : ℕ) : ∀ u, (wk g S k u).card = walksLoop g S k (fun _ => 1) u := by
  induction k with
  | zero => intro u; simp [wk, walksLoop]
  | succ k ih =>
    intro u
    rw [walksLoop_succ, stepW, wk, Finset.card_biUnion]
    · refine Finset.sum_congr rfl (fun v _ => ?_)
      rw [Finset.card_image_of_injective _ (List.cons_injective), ih]
    · intro v _ w _ hne
      rw [Function.onFun, Finset.disjoint_left]
      intro l h1 h2
      obtain ⟨m, hm, rfl⟩ := Finset.mem_image.1 h1
      obtain ⟨m', hm', he⟩ := Finset.mem_image.1 h2
      obtain ⟨t, rfl, -⟩ := (mem_wk g S k v m).1 hm
      obtain ⟨t', rfl, -⟩ := (mem_wk g S k w m').1 hm'
      simp only [List.cons.injEq, true_and] at he
      exact hne he.1.symm

/-- The sum of the counts over all first vertices. -/
theorem sum_walks {g : Graph V W} (hg : Good g) (S : Finset V) {n : ℕ} (hn : n ≠ 0) {u : V} (hu : u ∈ S) :
    ∑ a ∈ S, walks g a n S u = (wk g S n u).card := by
  obtain ⟨k, rfl⟩ := Nat.exists_eq_succ_of_ne_zero hn
  simp only [walks, Nat.succ_eq_add_one, Nat.add_sub_cancel]
  rw [walksLoop_sum, card_wk, walksLoop]
  refine walksLoop_congr g S k _ _ ?_ u hu
  intro v hv
  rw [Finset.sum_boole, Finset.sum_const, smul_eq_mul, mul_one]
  simp only [Nat.cast_id]
  congr 1
  ext a
  rw [Finset.mem_filter, Finset.mem_inter, Finset.mem_inter, mem_nb, mem_nb]
  constructor
  · rintro ⟨h1, h2, -⟩; exact ⟨(E_symm hg).1 h2, h1⟩
  · rintro ⟨h1, h2⟩; exact ⟨h2, (E_symm hg).1 h1, hv⟩

/-! ## The sum over the subsets -/

/-- The walks through `n` vertices of `U`. -/
def allWalks (g : Graph V W) (U : Finset V) (n : ℕ) : Finset (List V) := U.biUnion (fun u => wk g U (n - 1) u)

theorem mem_allWalks (g : Graph V W) (U : Finset V) {n : ℕ} (hn : n ≠ 0) (l : List V) : l ∈ allWalks g U n ↔
    l.length = n ∧ l.IsChain (E g) ∧ l.toFinset ⊆ U := by
  rw [allWalks, Finset.mem_biUnion]
  constructor
  · rintro ⟨u, hu, hl⟩
    obtain ⟨t, rfl, t1, t2, t3⟩ := (mem_wk g U _ u l).1 hl
    refine ⟨by simp [t1]; omega, t2, ?_⟩
    intro v hv
    rcases List.mem_cons.1 (List.mem_toFinset.1 hv) with rfl | hv
    · exact hu
    · exact t3 v hv
  · rintro ⟨h1, h2, h3⟩
    cases l with
    | nil => exact absurd h1.symm hn
    | cons u t =>
      refine ⟨u, h3 (by simp), (mem_wk g U _ u _).2 ⟨t, rfl, by simp at h1; omega, h2, ?_⟩⟩
      intro v hv
      exact h3 (by simp [hv])

theorem sum_card_wk (g : Graph V W) {S U : Finset V} (hS : S ⊆ U) {n : ℕ} (hn : n ≠ 0) :
    ∑ u ∈ S, (wk g S (n - 1) u).card = ((allWalks g U n).filter (fun l => l.toFinset ⊆ S)).card := by
  have h1 : (allWalks g U n).filter (fun l => l.toFinset ⊆ S) = allWalks g S n := by
    ext l
    rw [Finset.mem_filter, mem_allWalks g U hn, mem_allWalks g S hn]
    constructor
    · rintro ⟨⟨h1, h2, -⟩, h3⟩; exact ⟨h1, h2, h3⟩
    · rintro ⟨h1, h2, h3⟩; exact ⟨⟨h1, h2, h3.trans hS⟩, h3⟩
  rw [h1, allWalks, Finset.card_biUnion]
  intro v _ w _ hne
  rw [Function.onFun, Finset.disjoint_left]
  intro l h1 h2
  obtain ⟨t, rfl, -⟩ := (mem_wk g S _ v l).1 h1
  obtain ⟨t', he, -⟩ := (mem_wk g S _ w _).1 h2
  simp only [List.cons.injEq] at he
  exact hne he.1

theorem alternating {U R : Finset V} (hR : R ⊆ U) :
    ∑ S ∈ U.powerset.filter (fun S => R ⊆ S), (-1 : ℤ) ^ (U.card - S.card) = if R = U then 1 else 0 := by
  have h1 : ∑ S ∈ U.powerset.filter (fun S => R ⊆ S), (-1 : ℤ) ^ (U.card - S.card) =
      ∑ T ∈ (U \ R).powerset, (-1 : ℤ) ^ T.card := by
    refine Finset.sum_nbij' (fun S => U \ S) (fun T => U \ T) ?_ ?_ ?_ ?_ ?_
    · intro S hS
      rw [Finset.mem_filter, Finset.mem_powerset] at hS
      rw [Finset.mem_powerset]
      exact Finset.sdiff_subset_sdiff (le_refl _) hS.2
    · intro T hT
      rw [Finset.mem_powerset] at hT
      rw [Finset.mem_filter, Finset.mem_powerset]
      refine ⟨Finset.sdiff_subset, fun v hv => Finset.mem_sdiff.2 ⟨hR hv, fun h => ?_⟩⟩
      exact (Finset.mem_sdiff.1 (hT h)).2 hv
    · intro S hS
      rw [Finset.mem_filter, Finset.mem_powerset] at hS
      exact Finset.sdiff_sdiff_eq_self hS.1
    · intro T hT
      rw [Finset.mem_powerset] at hT
      exact Finset.sdiff_sdiff_eq_self (hT.trans Finset.sdiff_subset)
    · intro S hS
      rw [Finset.mem_filter, Finset.mem_powerset] at hS
      rw [Finset.card_sdiff_of_subset hS.1]
  rw [h1, Finset.sum_powerset_neg_one_pow_card]
  by_cases h : R = U
  · rw [if_pos h, if_pos (by rw [h, Finset.sdiff_self])]
  · rw [if_neg h, if_neg]
    intro h'
    exact h (Finset.Subset.antisymm hR (Finset.sdiff_eq_empty_iff_subset.1 h'))

theorem inclusion_exclusion (A : Finset (List V)) (U : Finset V) (hA : ∀ l ∈ A, l.toFinset ⊆ U) :
    ∑ S ∈ U.powerset, (-1 : ℤ) ^ (U.card - S.card) * ((A.filter (fun l => l.toFinset ⊆ S)).card : ℤ) =
      ((A.filter (fun l => l.toFinset = U)).card : ℤ) := by
  have h1 : ∀ S ∈ U.powerset, (-1 : ℤ) ^ (U.card - S.card) * ((A.filter (fun l => l.toFinset ⊆ S)).card : ℤ) =
      ∑ l ∈ A, if l.toFinset ⊆ S then (-1 : ℤ) ^ (U.card - S.card) else 0 := by
    intro S _
    rw [← Finset.sum_filter, Finset.sum_const, nsmul_eq_mul, mul_comm]
  rw [Finset.sum_congr rfl h1, Finset.sum_comm, Finset.card_filter, Nat.cast_sum]
  refine Finset.sum_congr rfl (fun l hl => ?_)
  rw [← Finset.sum_filter, alternating (hA l hl)]
  simp

/-! ## `number_of_hamiltonian_paths5` -/

theorem sum_sublists (l : List V) (h : l.Nodup) : ∀ F : Finset V → ℤ,
    ((List.sublists' l).map (fun t => F t.toFinset)).sum = ∑ S ∈ l.toFinset.powerset, F S := by
  induction l with
  | nil => intro F; simp
  | cons a l ih =>
    intro F
    obtain ⟨ha, hl⟩ := List.nodup_cons.1 h
    rw [List.sublists'_cons, List.map_append, List.sum_append, ih hl, List.map_map, List.toFinset_cons,
      Finset.sum_powerset_insert (by simpa using ha)]
    congr 1
    have := ih hl (fun S => F (insert a S))
    rw [← this]
    congr 1
    refine List.map_congr_left (fun t _ => ?_)
    simp

/-- The contribution of a set. -/
theorem term_eq {g : Graph V W} (hg : Good g) {U : Finset V} (hU : 2 ≤ U.card) {l : List V} (hnd : l.Nodup)
    (hl : l.toFinset ⊆ U) : term g U.card l = (-1 : ℤ) ^ (U.card - l.toFinset.card) *
      (((allWalks g U U.card).filter (fun w => w.toFinset ⊆ l.toFinset)).card : ℤ) := by
  rw [term, ← sum_card_wk g hl (by omega), List.toFinset_card_of_nodup hnd, ← List.sum_toFinset _ hnd]
  simp only [← List.sum_toFinset _ hnd]
  rw [Finset.sum_comm, Nat.cast_sum, Finset.mul_sum]
  refine Finset.sum_congr rfl (fun u hu => ?_)
  rw [← sum_walks hg l.toFinset (by omega) hu, Nat.cast_sum, Finset.mul_sum]

theorem number5_spec {ord : Finset V → List V} (hord : ∀ S, (ord S).Nodup ∧ ∀ x, x ∈ ord S ↔ x ∈ S) {g : Graph V W}
    (hg : Good g) (h2 : 2 ≤ (vertexSet g).card) :
    number5 ord g = ({l | IsHamiltonianPath {v | Mem g v} (E g) l}.ncard : ℤ) := by
  obtain ⟨hnd, hmem⟩ := hord (vertexSet g)
  have hfin : (ord (vertexSet g)).toFinset = vertexSet g := by
    ext v; rw [List.mem_toFinset, hmem]
  have hlen : (ord (vertexSet g)).length = (vertexSet g).card := by
    rw [← List.toFinset_card_of_nodup hnd, hfin]
  rw [number5]
  have hperm := (List.range_bind_sublistsLen_perm (ord (vertexSet g)))
  have hsum : ((List.range ((ord (vertexSet g)).length + 1)).map (fun s =>
      ((List.sublistsLen s (ord (vertexSet g))).map (term g (ord (vertexSet g)).length)).sum)).sum =
      ((List.sublists' (ord (vertexSet g))).map (term g (ord (vertexSet g)).length)).sum := by
    rw [← (hperm.map (term g (ord (vertexSet g)).length)).sum_eq, List.map_flatMap, List.flatMap_def, List.sum_flatten,
      List.map_map]
    rfl
  rw [hsum, hlen]
  have hterm : (List.sublists' (ord (vertexSet g))).map (term g (vertexSet g).card) =
      (List.sublists' (ord (vertexSet g))).map (fun t => (fun S : Finset V => (-1 : ℤ) ^ ((vertexSet g).card - S.card) *
        (((allWalks g (vertexSet g) (vertexSet g).card).filter (fun w => w.toFinset ⊆ S)).card : ℤ)) t.toFinset) := by
    refine List.map_congr_left (fun t ht => ?_)
    rw [List.mem_sublists'] at ht
    refine term_eq hg h2 (hnd.sublist ht) ?_
    intro v hv
    exact (hmem v).1 (ht.subset (List.mem_toFinset.1 hv))
  rw [hterm, sum_sublists _ hnd (fun S : Finset V => (-1 : ℤ) ^ ((vertexSet g).card - S.card) *
    (((allWalks g (vertexSet g) (vertexSet g).card).filter (fun w => w.toFinset ⊆ S)).card : ℤ)), hfin]
  have hA : ∀ l ∈ allWalks g (vertexSet g) (vertexSet g).card, l.toFinset ⊆ vertexSet g := fun l hl =>
    ((mem_allWalks g (vertexSet g) (by omega) l).1 hl).2.2
  rw [inclusion_exclusion _ _ hA]
  congr 1
  rw [← Set.ncard_coe_finset]
  congr 1
  ext l
  simp only [Finset.coe_filter, Set.mem_setOf_eq, mem_allWalks g (vertexSet g) (n := (vertexSet g).card) (by omega)]
  constructor
  · rintro ⟨⟨h3, h4, -⟩, h5⟩
    refine ⟨?_, ?_, ?_, h4⟩
    · rintro rfl; simp at h3; omega
    · rw [← h5] at h3
      exact Multiset.toFinset_card_eq_card_iff_nodup (m := (l : Multiset V)).1 h3.symm
    · intro v
      rw [Set.mem_setOf_eq, ← Graph.mem_vertexSet, ← h5, List.mem_toFinset]
  · rintro ⟨h3, h4, h5, h6⟩
    have h7 : l.toFinset = vertexSet g := by
      ext v; rw [List.mem_toFinset, h5, Graph.mem_vertexSet]; rfl
    exact ⟨⟨by rw [← h7, List.toFinset_card_of_nodup h4], h6, h7.subset⟩, h7⟩

end Rosemary.HamiltonianPaths
