import Verif.Props.Enumeration
import Verif.Props.Generation
import Verif.Props.Partitions
import Verif.Props.Tilings
import Verif.Props.ExactCover
import Verif.Props.Eta
import Mathlib.Data.Fintype.CardEmbedding
import Mathlib.Combinatorics.Enumerative.Partition.Glaisher

/-!
# C185: the generators list as many objects as the counting functions say
-/

namespace Rosemary.Props

open Rosemary.Enumeration Rosemary.Generation Rosemary.Gen Rosemary.Partitions

theorem sorted_lists_ext {α : Type} [LinearOrder α] {l m : List α} (hl : l.Pairwise (· < ·)) (hm : m.Pairwise (· < ·))
    (h : ∀ x, x ∈ l ↔ x ∈ m) : l = m :=
  List.Perm.eq_of_pairwise (fun _ _ _ _ h1 h2 => absurd (h1.trans h2) (lt_irrefl _)) hl hm
    ((List.perm_ext_iff_of_nodup (hl.imp (fun h => h.ne)) (hm.imp (fun h => h.ne))).2 h)

theorem sorted_lists_ext' {α : Type} [LinearOrder α] {l m : List α} (hl : l.Pairwise (· > ·)) (hm : m.Pairwise (· > ·))
    (h : ∀ x, x ∈ l ↔ x ∈ m) : l = m :=
  List.Perm.eq_of_pairwise (fun _ _ _ _ h1 h2 => absurd (lt_trans h2 h1) (lt_irrefl _)) hl hm
    ((List.perm_ext_iff_of_nodup (hl.imp (fun h => h.ne')) (hm.imp (fun h => h.ne'))).2 h)

/-! ## Combinations and tuples -/

/-- C185: `len(list(combinations(n, t))) == binomial(n, t)` for `0 <= t <= n`. -/
theorem C185_combinations_partial (n t : Nat) (h : t ≤ n) :
    ∃ L, combinations n t = some (L, none) ∧ binomial n t = L.length := by
  obtain ⟨L, h1, h2⟩ := C52_number n t h
  exact ⟨L, h1, by rw [binomial_eq n t h, h2]⟩

/-- Not so for `t > n`: `binomial(n, t)` is 1, and the generator never ends. -/
theorem C185_combinations_violation (n t : Nat) (h : n < t) : binomial n t = 1 ∧ combinations n t = none :=
  ⟨C56_binomial_outside n t (by omega) (Or.inr (by omega)), C52_too_many n t h⟩

def boxList : List Int → List (List Int)
  | [] => [[]]
  | m :: M => ((List.range m.toNat).map (fun a : Nat => (a : Int))).flatMap (fun a => (boxList M).map (a :: ·))

theorem boxList_spec (M : List Int) (hM : ∀ m ∈ M, 1 ≤ m) : (boxList M).Nodup ∧ ((boxList M).length : Int) = M.prod ∧
    ∀ t, t ∈ boxList M ↔ List.Forall₂ (fun a m => 0 ≤ a ∧ a < m) t M := by
  induction M with
  | nil => simp [boxList]
  | cons m M ih =>
    obtain ⟨h1, h2, h3⟩ := ih (fun x hx => hM x (List.mem_cons_of_mem _ hx))
    have hm := hM m List.mem_cons_self
    refine ⟨?_, ?_, fun t => ?_⟩
    · rw [boxList, List.nodup_flatMap]
      refine ⟨fun a _ => h1.map (fun x y h => (List.cons.inj h).2), ?_⟩
      rw [List.pairwise_map]
      refine List.nodup_range.imp (fun {a b} hab => ?_)
      intro t ht ht'
      obtain ⟨x, -, rfl⟩ := List.mem_map.1 ht
      obtain ⟨y, -, hy⟩ := List.mem_map.1 ht'
      exact hab (by exact_mod_cast (List.cons.inj hy).1.symm)
    · rw [boxList, List.length_flatMap]
      simp only [List.length_map, List.map_const', List.sum_replicate, List.length_range, smul_eq_mul, List.prod_cons]
      push_cast
      rw [h2, Int.toNat_of_nonneg (by omega)]
    · rw [boxList, List.mem_flatMap]
      simp only [List.mem_map, List.mem_range]
      constructor
      · rintro ⟨a, ⟨i, hi, rfl⟩, s, hs, rfl⟩
        exact List.Forall₂.cons ⟨by omega, by omega⟩ ((h3 s).1 hs)
      · intro h
        cases h with
        | cons hab ht => exact ⟨_, ⟨_, by omega, Int.toNat_of_nonneg hab.1⟩, _, (h3 _).2 ht, rfl⟩

/-- C185: `n_tuples(len(M), M)` yields the product of `M` many tuples, `n_tuples(n, m)` yields `m**n` many. -/
theorem C185_tuples (M : List Int) (hM : ∀ m ∈ M, 1 ≤ m) :
    (∃ L, nTuples M.length (.list M) = some (L, none) ∧ (L.length : Int) = M.prod) ∧
      ∀ (n : Nat) (m : Int), 1 ≤ m → ∃ L, nTuples n (.int m) = some (L, none) ∧ (L.length : Int) = m ^ n := by
  have key : ∀ M : List Int, (∀ m ∈ M, 1 ≤ m) → ∃ L, nTuples M.length (.list M) = some (L, none) ∧ (L.length : Int) = M.prod := by
    intro M hM
    obtain ⟨L, h1, h2, h3⟩ := C53_list M hM
    obtain ⟨b1, b2, b3⟩ := boxList_spec M hM
    refine ⟨L, h1, ?_⟩
    rw [← b2, ((List.perm_ext_iff_of_nodup (h2.imp (fun h => h.ne)) b1).2 (fun t => (h3 t).trans (b3 t).symm)).length_eq]
  refine ⟨key M hM, fun n m hm => ?_⟩
  rw [(C53_int n m).1]
  obtain ⟨L, h1, h2⟩ := key (List.replicate n m) (fun x hx => by rw [List.eq_of_mem_replicate hx]; exact hm)
  exact ⟨L, h1, by rw [h2, List.prod_replicate]⟩

/-! ## Permutations -/

variable {α : Type} [LinearOrder α] [Inhabited α]

/-- C185: `knuth_algorithm_l` yields as many arrangements as `multinomial` of the multiplicities says; if the elements differ it
yields `factorial(n)` many.  `phillips` yields the same list as `knuth_algorithm_l` if two elements differ. -/
theorem C185_permutations (elements : List α) :
    ∃ L, knuthL elements = some (L, none) ∧
      (elements ≠ [] → multinomial elements.length (elements.dedup.map (fun x => (elements.count x : Int))) = .ok L.length) ∧
      (elements.Nodup → ArithFunctions.factorial elements.length = .ok L.length) ∧
      ((∃ x ∈ elements, ∃ y ∈ elements, x ≠ y) → phillips elements = knuthL elements) := by
  obtain ⟨L, h1, h2, h3⟩ := C54_knuth_algorithm_l elements
  have hnd : L.Nodup := h2.imp (fun h => h.ne)
  refine ⟨L, h1, fun hne => ?_, fun hd => ?_, fun h => ?_⟩
  · rw [C56_multinomial elements elements.dedup (by simpa using hne) elements.nodup_dedup (fun x hx => by
      rw [List.mem_dedup] at hx
      rw [List.count_eq_zero.2 hx]
      omega)]
    congr 2
    have : Nat.card {w : List α // w.Perm elements} = Nat.card {w : List α // w ∈ L.toFinset} :=
      Nat.card_congr (Equiv.subtypeEquivRight (fun w => by rw [List.mem_toFinset, h3]))
    rw [this, Nat.card_eq_fintype_card, Fintype.card_coe, List.toFinset_card_of_nodup hnd]
  · rw [C31_factorial, ← List.length_permutations,
      ((List.perm_ext_iff_of_nodup hnd (List.nodup_permutations _ hd)).2 (fun t => by rw [h3, List.mem_permutations])).length_eq]
  · obtain ⟨P, p1, p2, p3⟩ := C54_phillips_partial elements h
    rw [p1, h1, sorted_lists_ext p2 h2 (fun t => (p3 t).trans (h3 t).symm)]

/-- C185: `knuth_algorithm_l_rvariations` with `n` different elements yields `factorial(n) // factorial(n - r)` many. -/
theorem C185_variations (elements : List α) (hd : elements.Nodup) (r : Nat) (h1 : 1 ≤ r) (h2 : r ≤ elements.length) :
    ∃ L f g, knuthLRVariations elements r = some (L, none) ∧ ArithFunctions.factorial elements.length = .ok f ∧
      ArithFunctions.factorial ((elements.length : Int) - r) = .ok g ∧ L.length = f / g := by
  obtain ⟨L, l1, l2, l3⟩ := C54_rvariations elements r h1 h2
  refine ⟨L, _, _, l1, C31_factorial _, by rw [← Nat.cast_sub h2]; exact C31_factorial _, ?_⟩
  have hnd : L.Nodup := l2.imp (fun h => h.ne)
  rw [← Nat.descFactorial_eq_div h2, ← List.toFinset_card_of_nodup hnd]
  have : elements.length.descFactorial r = (Finset.univ : Finset (Fin r ↪ {x // x ∈ elements.toFinset})).card := by
    rw [Finset.card_univ, Fintype.card_embedding_eq, Fintype.card_fin, Fintype.card_coe, List.toFinset_card_of_nodup hd]
  rw [this]
  symm
  refine Finset.card_bij (fun f _ => List.ofFn (fun i => (f i).1)) (fun f _ => ?_) (fun f _ g _ hfg => ?_) (fun t ht => ?_)
  · rw [List.mem_toFinset, l3]
    refine ⟨?_, by simp⟩
    apply List.Nodup.subperm
    · rw [List.nodup_ofFn]
      exact fun i j h => f.injective (Subtype.ext h)
    · intro x hx
      obtain ⟨i, rfl⟩ := (List.mem_ofFn' _ _).1 hx
      exact List.mem_toFinset.1 (f i).2
  · have := List.ofFn_injective hfg
    ext i
    exact congrFun this i
  · obtain ⟨t1, t2⟩ := (l3 t).1 (List.mem_toFinset.1 ht)
    subst t2
    have tnd : t.Nodup := by
      obtain ⟨l, hl, hs⟩ := t1
      exact hl.nodup_iff.1 (hd.sublist hs)
    refine ⟨⟨fun i => ⟨t.get i, List.mem_toFinset.2 (t1.subset (List.get_mem _ _))⟩, fun i j h => ?_⟩, Finset.mem_univ _, ?_⟩
    · exact (List.nodup_iff_injective_get.1 tnd) (congrArg Subtype.val h)
    · exact List.ofFn_get t

/-! ## Partitions -/

theorem card_partition_lists (n : Nat) (Q : Multiset Nat → Prop) [DecidablePred Q] (L : List (List Int)) (hnd : L.Nodup)
    (hm : ∀ t : List Int, t ∈ L ↔ t.Pairwise (· ≥ ·) ∧ (∀ x ∈ t, 1 ≤ x) ∧ t.sum = n ∧ Q ((t.map Int.toNat : List Nat) : Multiset Nat)) :
    L.length = ((Finset.univ : Finset n.Partition).filter (fun p => Q p.parts)).card := by
  have hback : ∀ l : List Nat, (l.map (fun i : Nat => (i : Int))).map Int.toNat = l := by
    intro l
    rw [List.map_map]
    exact (List.map_congr_left (fun x _ => by simp)).trans (List.map_id l)
  rw [← List.toFinset_card_of_nodup hnd]
  symm
  refine Finset.card_bij (fun p _ => (p.parts.sort (· ≥ ·)).map (fun i : Nat => (i : Int))) (fun p hp => ?_)
    (fun p _ q _ hpq => ?_) (fun t ht => ?_)
  · rw [List.mem_toFinset, hm]
    refine ⟨?_, fun x hx => ?_, ?_, ?_⟩
    · rw [List.pairwise_map]
      exact (Multiset.pairwise_sort _ _).imp (fun h => by exact_mod_cast h)
    · obtain ⟨i, hi, rfl⟩ := List.mem_map.1 hx
      have := p.parts_pos ((Multiset.mem_sort _).1 hi)
      exact_mod_cast this
    · rw [← Nat.cast_list_sum, ← Multiset.sum_coe, Multiset.sort_eq, p.parts_sum]
    · rw [hback, Multiset.sort_eq]
      exact (Finset.mem_filter.1 hp).2
  · have := congrArg (fun l : List Int => ((l.map Int.toNat : List Nat) : Multiset Nat)) hpq
    rw [hback, hback, Multiset.sort_eq, Multiset.sort_eq] at this
    exact Nat.Partition.ext this
  · obtain ⟨t1, t2, t3, t4⟩ := (hm t).1 (List.mem_toFinset.1 ht)
    have hfor : (t.map Int.toNat).map (fun i : Nat => (i : Int)) = t := by
      rw [List.map_map]
      refine (List.map_congr_left (fun x hx => ?_)).trans (List.map_id t)
      have := t2 x hx
      simp only [Function.comp_apply, id_eq]
      omega
    refine ⟨⟨(t.map Int.toNat : List Nat), fun {i} hi => ?_, ?_⟩, Finset.mem_filter.2 ⟨Finset.mem_univ _, t4⟩, ?_⟩
    · obtain ⟨x, hx, rfl⟩ := List.mem_map.1 (Multiset.mem_coe.1 hi)
      have := t2 x hx
      omega
    · rw [Multiset.sum_coe]
      have : (((t.map Int.toNat).sum : Nat) : Int) = n := by rw [Nat.cast_list_sum, hfor, t3]
      exact_mod_cast this
    · dsimp only
      rw [Multiset.coe_sort]
      have hs : (t.map Int.toNat).Pairwise (· ≥ ·) := by
        rw [List.pairwise_map]
        exact t1.imp (fun h => Int.toNat_le_toNat h)
      rw [List.mergeSort_of_pairwise (by simpa using hs), hfor]

/-- C185: with the exact index in `partition_list`, `len(list(integer_partitions(n))) == partition_number(n)` for `n >= 1`.  Listing
the parts `1, ..., n` explicitly changes nothing.  The partitions into distinct parts are those of all the partitions whose parts are
distinct, in the same order.  Those with `m` parts are those of all with length `m`, in another order. -/
theorem C185_partitions_partial (maxIdx : Nat → Nat) (n : Nat) (hn : 1 ≤ n)
    (hmax : ∀ m, 2 ≤ m → m ≤ n → ∀ k, 1 ≤ k → (k * (3 * k - 1) / 2 ≤ m ↔ k ≤ maxIdx m)) :
    ∃ L, integerPartitions n none false 0 = some (L, none) ∧ partitionNumber maxIdx n = .ok (L.length : Int) ∧
      integerPartitions n (some ((List.range n).map (fun i : Nat => (i : Int) + 1))) false 0 = some (L, none) ∧
      integerPartitions n none true 0 = some (L.filter (fun t => t.Pairwise (· > ·)), none) ∧
      ∀ m, 2 ≤ m → m ≤ n → ∃ L', integerPartitions n none false m = some (L', none) ∧ L'.Perm (L.filter (fun t => t.length = m)) := by
  obtain ⟨L, h1, h2, h3, h4⟩ := C55_all_partial hn
  refine ⟨L, h1, ?_, ?_, ?_, fun m hm hmn => ?_⟩
  · rw [C57_partition_number_partial maxIdx n hn hmax, card_partition_lists n (fun _ => True) L h2 (fun t => by rw [h4]; tauto)]
    simp
  · have hmem : ∀ x : Int, x ∈ (List.range n).map (fun i : Nat => (i : Int) + 1) ↔ 1 ≤ x ∧ x ≤ n := by
      intro x
      rw [List.mem_map]
      constructor
      · rintro ⟨i, hi, rfl⟩
        have := List.mem_range.1 hi
        omega
      · rintro ⟨x1, x2⟩
        exact ⟨(x - 1).toNat, List.mem_range.2 (by omega), by omega⟩
    obtain ⟨L', l1, l2, l3, l4⟩ := C55_parts_partial (n := n) (m := 0) (by omega)
      (parts := (List.range n).map (fun i : Nat => (i : Int) + 1))
      (List.nodup_range.map (fun a b h => by simpa using h)) (fun x hx => ((hmem x).1 hx).1)
    rw [l1, sorted_lists_ext' l3 h3 (fun t => ?_)]
    rw [l4, h4]
    constructor
    · rintro ⟨a, b, c, -⟩
      exact ⟨a, fun x hx => ((hmem x).1 (b x hx)).1, c⟩
    · rintro ⟨a, b, c⟩
      exact ⟨a, fun x hx => (hmem x).2 ⟨b x hx, c ▸ le_sum_of_mem b hx⟩, c, Or.inl rfl⟩
  · obtain ⟨L', l1, l2, l3, l4⟩ := C55_distinct_partial (n := n) (m := 0) (by omega)
    rw [l1, sorted_lists_ext' l3 (h3.filter _) (fun t => ?_)]
    rw [l4, List.mem_filter, h4, decide_eq_true_eq]
    constructor
    · rintro ⟨a, b, c, -⟩
      exact ⟨⟨a.imp (fun h => le_of_lt h), b, c⟩, a⟩
    · rintro ⟨⟨-, b, c⟩, a⟩
      exact ⟨a, b, c, Or.inl rfl⟩
  · obtain ⟨L', l1, l2, l3, l4⟩ := C55_num_parts_partial hm hmn
    refine ⟨L', l1, (List.perm_ext_iff_of_nodup l2 (h2.filter _)).2 (fun t => ?_)⟩
    rw [l4, List.mem_filter, h4, decide_eq_true_eq]
    tauto

/-- C185, Euler: there are as many partitions into distinct parts as into odd parts. -/
theorem C185_euler (n : Nat) : ∃ L L', integerPartitions n none true 0 = some (L, none) ∧
    integerPartitions n (some ((List.range n).map (fun i : Nat => 2 * (i : Int) + 1))) false 0 = some (L', none) ∧
    L.length = L'.length := by
  obtain ⟨L, h1, h2, -, h4⟩ := C55_distinct_partial (n := n) (m := 0) (by omega)
  have hmem : ∀ x : Int, x ∈ (List.range n).map (fun i : Nat => 2 * (i : Int) + 1) ↔ 1 ≤ x ∧ x < 2 * n ∧ x % 2 = 1 := by
    intro x
    rw [List.mem_map]
    constructor
    · rintro ⟨i, hi, rfl⟩
      have := List.mem_range.1 hi
      omega
    · rintro ⟨x1, x2, x3⟩
      exact ⟨(x / 2).toNat, List.mem_range.2 (by omega), by omega⟩
  obtain ⟨L', l1, l2, -, l4⟩ := C55_parts_partial (n := n) (m := 0) (by omega)
    (parts := (List.range n).map (fun i : Nat => 2 * (i : Int) + 1))
    (List.nodup_range.map (fun a b h => by simpa using h)) (fun x hx => ((hmem x).1 hx).1)
  refine ⟨L, L', h1, l1, ?_⟩
  rw [card_partition_lists n (fun s => s.Nodup) L h2 (fun t => ?_),
    card_partition_lists n (fun s => ∀ i ∈ s, ¬ Even i) L' l2 (fun t => ?_)]
  · exact (Nat.Partition.card_odds_eq_card_distincts n).symm
  · rw [l4]
    constructor
    · rintro ⟨a, b, c, -⟩
      refine ⟨a, fun x hx => ((hmem x).1 (b x hx)).1, c, fun i hi => ?_⟩
      obtain ⟨x, hx, rfl⟩ := List.mem_map.1 (Multiset.mem_coe.1 hi)
      have := (hmem x).1 (b x hx)
      rw [Nat.even_iff]
      omega
    · rintro ⟨a, b, c, d⟩
      refine ⟨a, fun x hx => (hmem x).2 ⟨b x hx, ?_, ?_⟩, c, Or.inl rfl⟩
      · have h5 := le_sum_of_mem b hx
        have := b x hx
        omega
      · have h5 := d x.toNat (Multiset.mem_coe.2 (List.mem_map.2 ⟨x, hx, rfl⟩))
        have := b x hx
        rw [Nat.even_iff] at h5
        omega
  · rw [h4]
    have hnd : (∀ x ∈ t, (1 : Int) ≤ x) → (((t.map Int.toNat : List Nat) : Multiset Nat).Nodup ↔ t.Nodup) := by
      intro b
      rw [Multiset.coe_nodup]
      refine ⟨fun h => h.of_map _, fun h => h.map_on (fun x hx y hy hxy => ?_)⟩
      have := b x hx
      have := b y hy
      omega
    constructor
    · rintro ⟨a, b, c, -⟩
      exact ⟨a.imp (fun h => le_of_lt h), b, c, (hnd b).2 (a.imp (fun h => h.ne'))⟩
    · rintro ⟨a, b, c, d⟩
      refine ⟨?_, b, c, Or.inl rfl⟩
      exact (a.and ((hnd b).1 d)).imp (fun h => lt_of_le_of_ne h.1 (Ne.symm h.2))

/-- C185: `ps_invert(eta_series(n + 1)) == partition_list(n)` for `n >= 1`. -/
theorem C185_eta_partial (maxIdx : Nat → Nat) (n : Nat) (hn : 1 ≤ n)
    (hmax : ∀ m, 2 ≤ m → m ≤ n → ∀ k, 1 ≤ k → (k * (3 * k - 1) / 2 ≤ m ↔ k ≤ maxIdx m)) :
    ∃ A B, Polys.etaSeries (n + 1) = .ok A ∧ Polys.psInvert A = .ok B ∧ partitionList maxIdx n = .ok B := by
  obtain ⟨A, a1, a2, a3⟩ := C81_eta_series (n + 1) (by omega)
  obtain ⟨P, p1, p2, p3⟩ := C57_partition_list_partial maxIdx n hn hmax
  have hA : ∀ i, i < n + 1 → A.getD i 0 = (PowerSeries.pentagonalSeries ℤ).coeff i := by
    intro i hi
    rw [a3 i hi (n + 1) le_rfl]
    exact Polys.eulerProd_pentagonal (n + 1) i (by omega)
  have hpz := congrArg (PowerSeries.coeff 0) genfun_mul
  rw [PowerSeries.coeff_mul, Finset.Nat.antidiagonal_zero, Finset.sum_singleton, PowerSeries.coeff_mk, pcount_zero, one_mul,
    PowerSeries.coeff_one, if_pos rfl] at hpz
  have h0 : A[0]? = some 1 := by
    have := hA 0 (by omega)
    rw [hpz, List.getD_eq_getElem?_getD, List.getElem?_eq_getElem (by omega)] at this
    rw [List.getElem?_eq_getElem (by omega)]
    simpa using this
  obtain ⟨B, b1, b2, b3⟩ := C48_ps_invert A 1 h0 (Or.inl rfl)
  refine ⟨A, B, a1, b1, ?_⟩
  have hB : ∀ i, i < n + 1 → B.getD i 0 = pcount i := by
    intro i
    induction i using Nat.strong_induction_on with
    | _ i ih =>
      intro hi
      have e1 := b3 i (by omega)
      rw [Polynomial.coeff_mul] at e1
      have e2 := congrArg (PowerSeries.coeff i) genfun_mul
      rw [mul_comm, PowerSeries.coeff_mul, PowerSeries.coeff_one, ← e1] at e2
      rw [← Finset.add_sum_erase _ _ (show (0, i) ∈ Finset.antidiagonal i by simp),
        ← Finset.add_sum_erase _ _ (show (0, i) ∈ Finset.antidiagonal i by simp)] at e2
      have e3 : ∑ x ∈ (Finset.antidiagonal i).erase (0, i), (PowerSeries.coeff x.1) (PowerSeries.pentagonalSeries ℤ) *
          (PowerSeries.coeff x.2) (PowerSeries.mk pcount) =
          ∑ x ∈ (Finset.antidiagonal i).erase (0, i), (Polys.toPoly A).coeff x.1 * (Polys.toPoly B).coeff x.2 := by
        refine Finset.sum_congr rfl (fun x hx => ?_)
        rw [Finset.mem_erase, Finset.mem_antidiagonal] at hx
        have hlt : x.2 < i := by
          rcases Nat.eq_zero_or_pos x.1 with h | h
          · exact absurd (Prod.ext h (show x.2 = i by omega)) hx.1
          · omega
        rw [C46_toPoly, C46_toPoly, hA x.1 (by omega), ih x.2 hlt (by omega), PowerSeries.coeff_mk]
      rw [e3] at e2
      have e4 := add_right_cancel e2
      dsimp only at e4
      rw [C46_toPoly, C46_toPoly, hA 0 (by omega), hpz, one_mul, one_mul, PowerSeries.coeff_mk] at e4
      exact e4.symm
  rw [p1]
  congr 1
  apply List.ext_getElem (by omega)
  intro i i1 i2
  have e1 := hB i (by omega)
  have e2 := p3 i (by omega)
  rw [List.getD_eq_getElem?_getD, List.getElem?_eq_getElem i2] at e1
  rw [List.getD_eq_getElem?_getD, List.getElem?_eq_getElem i1] at e2
  simp only [Option.getD_some] at e1 e2
  rw [e1, e2]
  rfl

/-! ## Pairs, set partitions, tilings -/

/-- C185: `bell_number(n + 1)` is the sum of `binomial(n, k) * bell_number(n - k)`. -/
theorem C185_bell (n : Nat) : ∃ b : Nat → Nat, (∀ m : Nat, bellNumber m = .ok (b m)) ∧
    (b (n + 1) : Int) = ∑ k ∈ Finset.range (n + 1), binomial n k * b (n - k) := by
  refine ⟨Nat.bell, bellNumber_eq, ?_⟩
  rw [Nat.bell_succ]
  push_cast
  refine Finset.sum_congr (by ext; simp [Nat.lt_succ_iff]) (fun k hk => ?_)
  rw [binomial_eq n k (by have := Finset.mem_range.1 hk; omega)]

/-- C185: `bipartitions(m, n) == bipartitions(n, m)`. -/
theorem C185_bipartitions_symm (m n : Nat) : bipartitions m n = bipartitions n m := by
  rw [C83_bipartitions, C83_bipartitions]
  have hsum : ∀ M : Multiset (ℕ × ℕ), (M.map Prod.swap).sum = M.sum.swap := by
    intro M
    induction M using Multiset.induction_on with
    | empty => rfl
    | cons a M ih => rw [Multiset.map_cons, Multiset.sum_cons, Multiset.sum_cons, ih]; rfl
  have hz : ∀ M : Multiset (ℕ × ℕ), (0, 0) ∉ M → (0, 0) ∉ M.map Prod.swap := by
    intro M hM h
    obtain ⟨x, hx, hx'⟩ := Multiset.mem_map.1 h
    apply hM
    rw [Prod.swap_eq_iff_eq_swap] at hx'
    rwa [hx'] at hx
  have hss : ∀ M : Multiset (ℕ × ℕ), (M.map Prod.swap).map Prod.swap = M := by
    intro M
    rw [Multiset.map_map]
    exact (Multiset.map_congr rfl (fun x _ => Prod.swap_swap x)).trans (Multiset.map_id M)
  exact Nat.card_congr ⟨fun M => ⟨M.1.map Prod.swap, hz _ M.2.1, by rw [hsum, M.2.2]; rfl⟩,
    fun M => ⟨M.1.map Prod.swap, hz _ M.2.1, by rw [hsum, M.2.2]; rfl⟩, fun M => Subtype.ext (hss _), fun M => Subtype.ext (hss _)⟩

theorem isDomino_swap (t : Finset (ℕ × ℕ)) :
    Tilings.IsDomino t ↔ Tilings.IsDomino (t.map (Equiv.prodComm ℕ ℕ).toEmbedding) := by
  have h : ∀ t, Tilings.IsDomino t → Tilings.IsDomino (t.map (Equiv.prodComm ℕ ℕ).toEmbedding) := by
    rintro _ ⟨a, b, hab, rfl⟩
    exact ⟨a.swap, b.swap, hab.symm, by simp⟩
  refine ⟨h t, fun ht => ?_⟩
  have := h _ ht
  rwa [Finset.map_map, show (Equiv.prodComm ℕ ℕ).toEmbedding.trans (Equiv.prodComm ℕ ℕ).toEmbedding =
    Function.Embedding.refl _ from rfl, Finset.map_refl] at this

/-- C185: the numbers of tilings do not change if the board is turned, and the two functions counting domino tilings agree on
square boards with at least four squares. -/
theorem C185_tilings_partial (hit hit' : Tilings.Cache Nat → Finset Nat × Finset Nat → Bool)
    (hit3 hit3' : Tilings.Cache Tilings.Sq → Finset Tilings.Sq × Finset Tilings.Sq → Bool) (m n : Nat) (hm : 1 ≤ m) (hn : 1 ≤ n) :
    Tilings.numberOfDominoTilings hit m n = Tilings.numberOfDominoTilings hit' n m ∧
      Tilings.triominoTilings hit3 m n = Tilings.triominoTilings hit3' n m ∧
      (2 ≤ n → ExactCover.dominoTilings n = Tilings.numberOfDominoTilings hit n n) := by
  refine ⟨?_, ?_, fun h => ?_⟩
  · rw [C59_domino_tilings hit m n hm hn, C59_domino_tilings hit' n m hn hm, ← Tilings.N_eq_card, ← Tilings.N_eq_card,
      ← Tilings.board_swap m n, ← Tilings.N_map _ Tilings.IsDomino Tilings.IsDomino _ (fun t _ => isDomino_swap t)]
  · rw [C84_triomino_tilings hit3 m n hm hn, C84_triomino_tilings hit3' n m hn hm, ← Tilings.N_eq_card, ← Tilings.N_eq_card,
      ← Tilings.board_swap m n, ← Tilings.N_map _ Tilings.IsTriomino Tilings.IsTriomino _ (fun t _ => Tilings.isTriomino_swap t)]
  · rw [C85_domino_tilings_partial n (by omega), C59_domino_tilings hit n n hn hn]

/-- On a single square they do not. -/
theorem C185_tilings_violation (hit : Tilings.Cache Nat → Finset Nat × Finset Nat → Bool) :
    ExactCover.dominoTilings 1 = .ok 1 ∧ Tilings.numberOfDominoTilings hit 1 1 = .ok 0 := by
  refine ⟨C85_single_square.1, ?_⟩
  rw [C59_domino_tilings hit 1 1 le_rfl le_rfl, C85_single_square.2]

/-! ## Examples -/

example : ∃ L, combinations 5 2 = some (L, none) ∧ L.length = 10 ∧ binomial 5 2 = 10 := by
  obtain ⟨L, h1, h2⟩ := C185_combinations_partial 5 2 (by norm_num)
  have h3 : binomial 5 2 = 10 := by decide +kernel
  have h4 : (L.length : Int) = 10 := by rw [← h2]; exact h3
  exact ⟨L, h1, by exact_mod_cast h4, h3⟩
example : ∃ L, integerPartitions 5 none true 0 = some (L, none) ∧ [3, 2] ∈ L ∧ [3, 1, 1] ∉ L := by
  obtain ⟨L, h1, -, -, h2⟩ := C55_distinct_partial (n := 5) (m := 0) (by omega)
  exact ⟨L, h1, (h2 _).2 (by decide), fun h => by have := ((h2 _).1 h).1; revert this; decide⟩
example : Polys.psInvert [1, -1, -1, 0, 0, 1, 0, 1] = .ok [1, 1, 2, 3, 5, 7, 11, 15] := by decide +kernel
example : bipartitions 4 0 = 5 ∧ bipartitions 2 3 = bipartitions 3 2 := by decide +kernel

end Rosemary.Props
