import Verif.Lemmas.PartitionsB

/-!
# Property of the partition generator
-/

namespace Rosemary.Partitions

open Rosemary.Gen Rosemary.Lex Rosemary.Generation

theorem isPart_iff {n : Int} {t : List Int} :
    IsPart n t ↔ t.Pairwise (· ≥ ·) ∧ (∀ x ∈ t, 1 ≤ x) ∧ t.sum = n := Iff.rfl

/-- The outcome of the backtracking search in terms of the order between parts. -/
theorem backtrack_top (n : Nat) (parts : List Int) (hpw : parts.Pairwise (· > ·)) (hpos : ∀ x ∈ parts, 1 ≤ x)
    (dist np : Nat) (hd : dist ≤ 1) : ∃ L : List (List Int), backtrack n parts dist np 0 [] 0 0 = some L ∧
      L.Pairwise (· > ·) ∧
      ∀ d, d ∈ L ↔ ((∀ x ∈ d, x ∈ parts) ∧ d.Pairwise (Follows parts dist)) ∧ d.sum = n ∧
        (np = 0 ∨ d.length = np) := by
  obtain ⟨L, h1, h2, h3⟩ := backtrack_spec n parts hpw hpos dist np _ 0 [] 0 0 rfl
  refine ⟨L, ?_, h2, fun d => ?_⟩
  · rw [h1]
    simp
  · rw [h3, adm_iff hpw hd]
    have hmem : ∀ x, (∃ i, nextIdx dist 0 ≤ i ∧ i < parts.length ∧ gi parts i = x) ↔ x ∈ parts := by
      intro x
      rw [List.mem_iff_getElem]
      constructor
      · rintro ⟨i, -, h, rfl⟩
        exact ⟨i, h, (gi_eq h).symm⟩
      · rintro ⟨i, h, rfl⟩
        exact ⟨i, by simp [nextIdx], h, gi_eq h⟩
    simp only [hmem, sub_zero, zero_add]

theorem pairwise_allParts {parts : List Int} (n : Nat) (hnd : parts.Nodup) :
    (allParts n (some parts)).Pairwise (· > ·) := by
  have h1 : (allParts n (some parts)).Pairwise (fun a b => decide (a ≥ b) = true) :=
    pairwise_pySort (fun a b c => by simp; omega) (fun a b => by simp; omega) parts
  have h2 : (allParts n (some parts)).Nodup := (pySort_perm _ _).nodup_iff.2 hnd
  rw [List.Nodup] at h2
  refine (h1.and h2).imp ?_
  rintro a b ⟨h, h'⟩
  simp at h
  omega

theorem mem_allParts_none {n : Nat} {x : Int} : x ∈ allParts n none ↔ 1 ≤ x ∧ x ≤ n := by
  rw [allParts, List.mem_reverse, List.mem_map]
  constructor
  · rintro ⟨i, hi, rfl⟩
    rw [List.mem_range] at hi
    omega
  · rintro ⟨h1, h2⟩
    exact ⟨(x - 1).toNat, List.mem_range.2 (by omega), by omega⟩

theorem pairwise_allParts_none (n : Nat) : (allParts n none).Pairwise (· > ·) := by
  rw [allParts, List.pairwise_reverse, List.pairwise_map]
  exact List.pairwise_lt_range.imp (fun h => by omega)

end Rosemary.Partitions

namespace Rosemary.Props

open Rosemary.Gen Rosemary.Lex Rosemary.Generation Rosemary.Partitions

/-- C55, no constraint: for every `n ≥ 1` the generator ends, raises nothing and yields exactly the
weakly decreasing lists of positive integers with sum `n`, each once and in decreasing lexicographic order.
What is missing from the claim: `n = 0` raises (see `C55_zero_raises`). -/
theorem C55_all_partial {n : Nat} (hn : 1 ≤ n) :
    ∃ L, integerPartitions n none false 0 = some (L, none) ∧ L.Nodup ∧ L.Pairwise (· > ·) ∧
      ∀ t : List Int, t ∈ L ↔ t.Pairwise (· ≥ ·) ∧ (∀ x ∈ t, 1 ≤ x) ∧ t.sum = n := by
  rw [integerPartitions, if_neg (by omega), if_neg (by simp), if_neg (by simp), if_neg (by omega)]
  obtain ⟨L, h1, h2, h3⟩ := run_p (pGood_init hn)
  refine ⟨L, h1, h2.imp (fun h => ne_of_gt h), h2, fun t => ?_⟩
  rw [h3, isPart_iff]
  constructor
  · exact fun h => h.1
  · refine fun h => ⟨h, ?_⟩
    have hout : pOut (pInit n) = [(n : Int)] := by
      obtain ⟨k, rfl⟩ : ∃ k, n = k + 1 := ⟨n - 1, by omega⟩
      simp [pOut, pInit, List.replicate_succ]
    rw [hout]
    have := greedy_max 0 (r := n) (m := n) (by omega) (t := t) h.2.1
      (fun x hx => h.2.2 ▸ le_sum_of_mem h.2.1 hx) (by simp [h.2.2])
    simpa using this

example : ∃ L, integerPartitions 4 none false 0 = some (L, none) ∧
    L = [[4], [3, 1], [2, 2], [2, 1, 1], [1, 1, 1, 1]] :=
  ⟨_, run_of_runN 10 (by decide +kernel), rfl⟩

/-- C55, violated at the documented boundary: `list(integer_partitions(0))` raises IndexError although
`n >= 0` is allowed. -/
theorem C55_zero_raises : integerPartitions 0 none false 0 = some ([], some .indexError) := by
  simp [integerPartitions]

/-- C55, a number of parts: for `2 ≤ m ≤ n` exactly the partitions of `n` into `m` parts, each once
and in increasing lexicographic order of the reversed lists.
What is missing from the claim: `m = 1` (`C55_one_part_raises`) and `m > n` (`C55_too_many_parts`). -/
theorem C55_num_parts_partial {n m : Nat} (hm : 2 ≤ m) (hmn : m ≤ n) :
    ∃ L, integerPartitions n none false m = some (L, none) ∧ L.Nodup ∧
      L.Pairwise (fun a b => a.reverse < b.reverse) ∧
      ∀ t : List Int, t ∈ L ↔ t.Pairwise (· ≥ ·) ∧ (∀ x ∈ t, 1 ≤ x) ∧ t.sum = n ∧ t.length = m := by
  rw [integerPartitions, if_neg (by omega), if_neg (by simp), if_pos (by omega)]
  obtain ⟨L, h1, h2, h3⟩ := run_h hm (isPart_hInit (n := n) (by omega : 1 ≤ m) hmn)
  refine ⟨L, h1, h2.imp (fun h h' => ?_), h2, fun t => ?_⟩
  · rw [h'] at h; exact lt_irrefl _ h
  · rw [h3, isPart_iff]
    constructor
    · rintro ⟨⟨a, b, c⟩, d, -⟩; exact ⟨a, b, c, d⟩
    · rintro ⟨a, b, c, d⟩; exact ⟨⟨a, b, c⟩, d, hInit_min (by omega) ⟨a, b, c⟩ d hmn⟩

example : ∃ L, integerPartitions 7 none false 3 = some (L, none) ∧
    L = [[5, 1, 1], [4, 2, 1], [3, 3, 1], [3, 2, 2]] :=
  ⟨_, run_of_runN 10 (by decide +kernel), rfl⟩

/-- C55, violated: asking for one part yields `[n]` and then raises IndexError, for every `n ≥ 1`. -/
theorem C55_one_part_raises {n : Nat} (hn : 1 ≤ n) :
    integerPartitions n none false 1 = some ([[(n : Int)]], some .indexError) := by
  rw [integerPartitions, if_neg (by omega), if_neg (by simp), if_pos (by omega)]
  rw [run_raise (e := .indexError)]
  · simp [hInit]
  · simp [hInit, hStep]

/-- C55, violated: when more parts are asked for than `n`, the empty list is yielded, whatever the other
options are, although it is not a partition of a positive `n` and there is no partition into that many parts. -/
theorem C55_too_many_parts {n m : Nat} (h : n < m) (parts : Option (List Int)) (distinct : Bool) :
    integerPartitions n parts distinct m = some ([[]], none) ∧
      ¬ ∃ t : List Int, (∀ x ∈ t, 1 ≤ x) ∧ t.sum = n ∧ t.length = m := by
  refine ⟨by rw [integerPartitions, if_pos h], ?_⟩
  rintro ⟨t, h1, h2, h3⟩
  have := length_le_sum h1
  omega

/-- C55, distinct parts without a list of allowed parts and any number of parts `m ≤ n` (0 for any):
exactly the strictly decreasing lists, each once and in decreasing lexicographic order; also for `n = 0`. -/
theorem C55_distinct_partial {n m : Nat} (hmn : m ≤ n) :
    ∃ L, integerPartitions n none true m = some (L, none) ∧ L.Nodup ∧ L.Pairwise (· > ·) ∧
      ∀ t : List Int, t ∈ L ↔ t.Pairwise (· > ·) ∧ (∀ x ∈ t, 1 ≤ x) ∧ t.sum = n ∧ (m = 0 ∨ t.length = m) := by
  rw [integerPartitions, if_neg (by omega), if_pos (by simp), if_pos rfl]
  obtain ⟨L, h1, h2, h3⟩ := backtrack_top n (allParts n none) (pairwise_allParts_none n)
    (fun x hx => (mem_allParts_none.1 hx).1) 1 m le_rfl
  rw [h1]
  refine ⟨L, rfl, h2.imp (fun h => ne_of_gt h), h2, fun t => ?_⟩
  rw [h3]
  have hlast : ∀ x : Int, (allParts n none).head? = some x → x = n := by
    intro x hx
    have : (allParts n none).head? = if n = 0 then none else some (n : Int) := by
      cases n with
      | zero => simp [allParts]
      | succ k => simp [allParts, List.range_succ]
    rw [this] at hx
    split_ifs at hx
    exact (Option.some.inj hx).symm
  constructor
  · rintro ⟨⟨a, b⟩, c, d⟩
    have hpos : ∀ x ∈ t, 1 ≤ x := fun x hx => (mem_allParts_none.1 (a x hx)).1
    refine ⟨?_, hpos, c, d⟩
    cases t with
    | nil => simp
    | cons y t =>
      rw [List.pairwise_iff_getElem] at b ⊢
      intro i j hi hj hij
      have hf := b i j hi hj hij
      rw [Follows, if_neg (by omega)] at hf
      rcases hf with hf | ⟨hf1, hf2⟩
      · exact hf
      · exfalso
        have hx := hlast _ hf2
        have hsub : [(y :: t)[i], (y :: t)[j]].Sublist (y :: t) := by
          have h5 : (y :: t).drop j = (y :: t)[j] :: (y :: t).drop (j + 1) := List.drop_eq_getElem_cons hj
          have h4 : (y :: t).drop i = (y :: t)[i] :: (y :: t).drop (i + 1) := List.drop_eq_getElem_cons hi
          refine List.Sublist.trans ?_ (List.drop_sublist i _)
          rw [h4]
          refine List.Sublist.cons_cons _ ?_
          refine List.Sublist.trans ?_ (List.drop_sublist (j - (i + 1)) _)
          rw [List.drop_drop, show i + 1 + (j - (i + 1)) = j by omega, h5]
          exact List.Sublist.cons_cons _ (List.nil_sublist _)
        have hs : ∀ (l l' : List Int), l.Sublist l' → (∀ x ∈ l', 1 ≤ x) → l.sum ≤ l'.sum := by
          intro l l' hl
          induction hl with
          | slnil => simp
          | cons a _ ih =>
            intro h
            have := ih (fun x hx => h x (List.mem_cons_of_mem _ hx))
            have := h a List.mem_cons_self
            rw [List.sum_cons]; omega
          | cons_cons a _ ih =>
            intro h
            have := ih (fun x hx => h x (List.mem_cons_of_mem _ hx))
            rw [List.sum_cons, List.sum_cons]; omega
        have h6 := hs _ _ hsub hpos
        rw [c, List.sum_cons, List.sum_cons, List.sum_nil, hf1, hx] at h6
        have := hpos _ (List.getElem_mem hi)
        omega
  · rintro ⟨a, b, c, d⟩
    refine ⟨⟨fun x hx => mem_allParts_none.2 ⟨b x hx, c ▸ le_sum_of_mem b hx⟩, ?_⟩, c, d⟩
    exact a.imp (fun h => by rw [Follows, if_neg (by omega)]; exact Or.inl h)

/-- C55, a list of allowed parts (positive, without repetitions, in any order) and any number of parts
`m ≤ n` (0 for any): exactly the weakly decreasing lists over the allowed parts, each once and in
decreasing lexicographic order. -/
theorem C55_parts_partial {n m : Nat} (hmn : m ≤ n) {parts : List Int} (hnd : parts.Nodup)
    (hpos : ∀ x ∈ parts, 1 ≤ x) :
    ∃ L, integerPartitions n (some parts) false m = some (L, none) ∧ L.Nodup ∧ L.Pairwise (· > ·) ∧
      ∀ t : List Int, t ∈ L ↔ t.Pairwise (· ≥ ·) ∧ (∀ x ∈ t, x ∈ parts) ∧ t.sum = n ∧ (m = 0 ∨ t.length = m) := by
  rw [integerPartitions, if_neg (by omega), if_pos (by simp), if_neg (by simp)]
  have hmem : ∀ x, x ∈ allParts n (some parts) ↔ x ∈ parts := fun x => (pySort_perm _ _).mem_iff
  obtain ⟨L, h1, h2, h3⟩ := backtrack_top n (allParts n (some parts)) (pairwise_allParts n hnd)
    (fun x hx => hpos x ((hmem x).1 hx)) 0 m (by omega)
  rw [h1]
  refine ⟨L, rfl, h2.imp (fun h => ne_of_gt h), h2, fun t => ?_⟩
  rw [h3]
  have hF : Follows (allParts n (some parts)) 0 = (· ≥ ·) := by
    funext x y
    rw [Follows, if_pos rfl]
  rw [hF]
  simp only [hmem]
  tauto

/-- C55, distinct parts together with a list of allowed parts: the search yields the lists that are strictly
decreasing except that the largest allowed part may be repeated.
What is missing from the claim: the repetitions should not be there, see `C55_distinct_parts_wrong`. -/
theorem C55_distinct_parts_partial {n m : Nat} (hmn : m ≤ n) {parts : List Int} (hnd : parts.Nodup)
    (hpos : ∀ x ∈ parts, 1 ≤ x) :
    ∃ L, integerPartitions n (some parts) true m = some (L, none) ∧ L.Nodup ∧ L.Pairwise (· > ·) ∧
      ∀ t : List Int, t ∈ L ↔ t.Pairwise (fun x y => y < x ∨ (y = x ∧ ∀ z ∈ parts, z ≤ x)) ∧
        (∀ x ∈ t, x ∈ parts) ∧ t.sum = n ∧ (m = 0 ∨ t.length = m) := by
  rw [integerPartitions, if_neg (by omega), if_pos (by simp), if_pos rfl]
  have hmem : ∀ x, x ∈ allParts n (some parts) ↔ x ∈ parts := fun x => (pySort_perm _ _).mem_iff
  have hpw := pairwise_allParts n hnd
  obtain ⟨L, h1, h2, h3⟩ := backtrack_top n (allParts n (some parts)) hpw
    (fun x hx => hpos x ((hmem x).1 hx)) 1 m le_rfl
  rw [h1]
  refine ⟨L, rfl, h2.imp (fun h => ne_of_gt h), h2, fun t => ?_⟩
  rw [h3]
  have hhead : ∀ x ∈ parts, (allParts n (some parts)).head? = some x ↔ ∀ z ∈ parts, z ≤ x := by
    intro x hx
    rw [← hmem] at hx
    simp only [← hmem]
    generalize allParts n (some parts) = q at *
    cases q with
    | nil => simp at hx
    | cons a q =>
      rw [List.pairwise_cons] at hpw
      rw [List.head?_cons, Option.some.injEq]
      constructor
      · rintro rfl z hz
        rcases List.mem_cons.1 hz with rfl | hz
        · exact le_rfl
        · exact (hpw.1 z hz).le
      · intro h
        rcases List.mem_cons.1 hx with rfl | hx
        · rfl
        · have := h a List.mem_cons_self
          have := hpw.1 x hx
          omega
  simp only [hmem]
  have hF : (∀ x ∈ t, x ∈ parts) → (t.Pairwise (Follows (allParts n (some parts)) 1) ↔
      t.Pairwise (fun x y => y < x ∨ (y = x ∧ ∀ z ∈ parts, z ≤ x))) := by
    intro ht
    constructor
    · intro h
      refine h.imp_of_mem ?_
      intro x y hx _ h
      rw [Follows, if_neg (by omega), hhead x (ht x hx)] at h
      exact h
    · intro h
      refine h.imp_of_mem ?_
      intro x y hx _ h
      rw [Follows, if_neg (by omega), hhead x (ht x hx)]
      exact h
  constructor
  · rintro ⟨⟨a, b⟩, c, d⟩; exact ⟨(hF a).1 b, a, c, d⟩
  · rintro ⟨b, a, c, d⟩; exact ⟨⟨a, (hF a).2 b⟩, c, d⟩

example : ∃ L, integerPartitions 6 none true 0 = some (L, none) ∧ [3, 2, 1] ∈ L ∧ [2, 2, 2] ∉ L ∧ [5, 1] ∈ L := by
  obtain ⟨L, h1, -, -, h⟩ := C55_distinct_partial (n := 6) (m := 0) (by omega)
  exact ⟨L, h1, (h _).2 (by decide), fun h' => absurd ((h _).1 h') (by decide), (h _).2 (by decide)⟩

example : ∃ L, integerPartitions 6 (some [1, 4]) false 0 = some (L, none) ∧ [4, 1, 1] ∈ L ∧ [3, 3] ∉ L := by
  obtain ⟨L, h1, -, -, h⟩ := C55_parts_partial (n := 6) (m := 0) (by omega) (parts := [1, 4]) (by decide) (by decide)
  exact ⟨L, h1, (h _).2 (by decide), fun h' => absurd ((h _).1 h') (by decide)⟩

/-- C55, violated: `integer_partitions(4, parts=[2], distinct=True)` yields `[2, 2]`. -/
theorem C55_distinct_parts_wrong :
    ∃ L, integerPartitions 4 (some [2]) true 0 = some (L, none) ∧ [2, 2] ∈ L := by
  obtain ⟨L, h1, -, -, h⟩ := C55_distinct_parts_partial (n := 4) (m := 0) (by omega) (parts := [2]) (by decide)
    (by decide)
  exact ⟨L, h1, (h _).2 (by decide)⟩

end Rosemary.Props
