import Verif.Model.Misc
import Verif.Props.Core
import Verif.Props.Sieves
import Verif.Props.Graph
import Verif.Props.Matrices
import Verif.Lemmas.BitSieve
import Mathlib.Data.Finset.Sort
import Mathlib.Data.Nat.Digits.Lemmas

/-!
# Properties C121 to C126
-/

namespace Rosemary.Props

open Rosemary Rosemary.Core Rosemary.Misc Rosemary.Primality

/-! ## C121: is_power2 -/

private theorem isPower2Loop_spec (n : Nat) (d k : Nat) (hk : 2 ≤ k) (hd : n < 2 ^ (k + d))
    (hprev : ∀ c j : Nat, 2 ≤ j → j < k → c ^ j ≠ n) :
    (∃ r e : Nat, isPower2Loop n k = .ok (some (r, e)) ∧ 2 ≤ e ∧ r ^ e = n ∧
      ∀ c j : Nat, 2 ≤ j → c ^ j = n → e ≤ j) ∨
    (isPower2Loop n k = .ok none ∧ ∀ c j : Nat, 2 ≤ n → 2 ≤ j → c ^ j ≠ n) := by
  have hstop : n < 2 ^ k → (isPower2Loop n k = .ok none ∧ ∀ c j : Nat, 2 ≤ n → 2 ≤ j → c ^ j ≠ n) := by
    intro h
    rw [isPower2Loop, dif_neg (by exact_mod_cast Nat.not_le.2 h)]
    refine ⟨rfl, fun c j hn hj he => ?_⟩
    by_cases hjk : j < k
    · exact hprev c j hj hjk he
    · have hc : 2 ≤ c := by
        by_contra hc
        have : c ^ j ≤ 1 := by
          calc c ^ j ≤ 1 ^ j := Nat.pow_le_pow_left (by omega) j
            _ = 1 := one_pow j
        omega
      have h1 : 2 ^ k ≤ c ^ j := (Nat.pow_le_pow_right (by omega) (by omega)).trans (Nat.pow_le_pow_left hc j)
      omega
  induction d generalizing k with
  | zero => exact Or.inr (hstop (by simpa using hd))
  | succ d ih =>
    by_cases hlt : n < 2 ^ k
    · exact Or.inr (hstop hlt)
    · rw [isPower2Loop, dif_pos (by exact_mod_cast Nat.le_of_not_lt hlt)]
      have hroot : ∃ r : Nat, integerNthRoot k n = .ok r ∧ ∀ c : Nat, c ^ k = n → r = c := by
        by_cases h2 : k = 2
        · subst h2
          obtain ⟨r, h1, -, -, h4⟩ := C09_integer_sqrt_bounds n (by omega)
          refine ⟨r, ?_, fun c hc => h4 c (by exact_mod_cast hc.symm)⟩
          rw [← h1]
          exact C08_integer_nth_root_two _
        · obtain ⟨r, h1, h3, h4⟩ := C08_integer_nth_root_partial k n (by omega) (by omega) (by omega)
          rw [Int.toNat_natCast] at h3 h4
          refine ⟨r, h1, fun c hc => ?_⟩
          have h3' : r ^ k ≤ n := by exact_mod_cast h3
          have h4' : n < (r + 1) ^ k := by exact_mod_cast h4
          rw [← hc] at h3' h4'
          have a := lt_of_pow_lt_pow_left₀ k (by omega) h4'
          have b := (Nat.pow_le_pow_iff_left (by omega : k ≠ 0)).1 h3'
          omega
      obtain ⟨r, hr, huniq⟩ := hroot
      rw [hr]
      dsimp only
      by_cases he : r ^ k = n
      · rw [if_pos (by exact_mod_cast he)]
        refine Or.inl ⟨r, k, rfl, hk, he, fun c j hj hc => ?_⟩
        by_contra hlt'
        exact hprev c j hj (by omega) hc
      · rw [if_neg (by exact_mod_cast he)]
        apply ih (k + 1) (by omega) (by rw [show k + 1 + d = k + (d + 1) by omega]; exact hd)
        · intro c j hj hjk hc
          by_cases hjk' : j < k
          · exact hprev c j hj hjk' hc
          · have : j = k := by omega
            subst this
            rw [huniq c hc] at he
            exact he hc
        · intro hlt'
          rw [isPower2Loop, dif_neg (by exact_mod_cast Nat.not_le.2 hlt')]
          refine ⟨rfl, fun c j hn hj hc => ?_⟩
          by_cases hjk' : j < k
          · exact hprev c j hj hjk' hc
          · by_cases hjk : j = k
            · subst hjk
              rw [huniq c hc] at he
              exact he hc
            · have hc2 : 2 ≤ c := by
                by_contra hc'
                have : c ^ j ≤ 1 := by
                  calc c ^ j ≤ 1 ^ j := Nat.pow_le_pow_left (by omega) j
                    _ = 1 := one_pow j
                omega
              have h1 : 2 ^ (k + 1) ≤ c ^ j :=
                (Nat.pow_le_pow_right (by omega) (by omega)).trans (Nat.pow_le_pow_left hc2 j)
              omega

/-- C121: for `n >= 2`, `is_power2(n)` returns `(r, k)` with `n = r^k` and the least exponent `k >= 2`, and
`False` if `n` is not a perfect power.  (The inexact square roots of C09 do no harm.) -/
theorem C121_is_power2 (n : Nat) (hn : 2 ≤ n) :
    (∃ r k : Nat, isPower2 n = .ok (some (r, k)) ∧ 2 ≤ k ∧ r ^ k = n ∧
      ∀ c j : Nat, 2 ≤ j → c ^ j = n → k ≤ j) ∨
    (isPower2 n = .ok none ∧ ∀ c j : Nat, 2 ≤ j → c ^ j ≠ n) := by
  rcases isPower2Loop_spec n n 2 (le_refl _)
    (lt_trans Nat.lt_two_pow_self (Nat.pow_lt_pow_right (by omega) (by omega))) (by omega) with h | ⟨h1, h2⟩
  · exact Or.inl h
  · exact Or.inr ⟨h1, fun c j hj => h2 c j hn hj⟩

/-- C121: below 2 the result is `False`, also for `0 = 0^2` and `1 = 1^2`. -/
theorem C121_is_power2_small (n : Int) (hn : n < 2) : isPower2 n = .ok none := by
  rw [isPower2, isPower2Loop, dif_neg (by norm_num; omega)]

example : isPower2 4096 = .ok (some (64, 2)) ∧ isPower2 (7 ^ 15) = .ok (some (7 ^ 5, 3)) := by decide +kernel

/-! ## C122: primorial -/

/-- C122: `primorial(n)` for `n >= 1` is the product of the `n` smallest primes, if the float estimate used
for `n` beyond the table is not too small; for `n <= 0` it raises ValueError. -/
theorem C122_primorial_partial (T : List Nat) (hT : IsPrimeTable T) (bound : Nat → Int) (n : Nat) (hn : 1 ≤ n)
    (hb : n ≤ (Spec.primesUpTo (bound n).toNat).length) :
    ∃ L : List Nat, L.length = n ∧ L.Pairwise (· < ·) ∧ (∀ p ∈ L, p.Prime) ∧
      (∀ p ∈ L, ∀ q, q.Prime → q ≤ p → q ∈ L) ∧ primorial T bound n = .ok L.prod := by
  obtain ⟨L, h1, h2, h3, h4, -, h6⟩ := C18_primes_first_n_partial T hT bound n
  refine ⟨L, h6 hb, h2, h3, h4, ?_⟩
  rw [Misc.primorial, if_neg (by omega), h1]
  dsimp only
  have : ∀ (l : List Nat) (a : Nat), l.foldl (· * ·) a = a * l.prod := by
    intro l
    induction l with
    | nil => intro a; simp
    | cons b l ih => intro a; rw [List.foldl_cons, ih, List.prod_cons, mul_assoc]
  rw [this, one_mul]

theorem C122_primorial_error (T : List Nat) (bound : Nat → Int) (n : Int) (hn : n ≤ 0) :
    primorial T bound n = .error .valueError := by
  rw [Misc.primorial, if_pos hn]

example : primorial [2, 3, 5, 7, 11, 13, 17, 19, 23, 29, 31] (fun _ => 0) 10 = .ok 6469693230 := by decide +kernel

/-! ## C123: odd_graph -/

private theorem mem_itCombinations {α : Type} (r : Nat) (l u : List α) :
    u ∈ itCombinations r l ↔ u.Sublist l ∧ u.length = r := by
  induction l generalizing r u with
  | nil =>
    cases r with
    | zero => simp [itCombinations]
    | succ r =>
      simp only [itCombinations, List.not_mem_nil, List.sublist_nil, false_iff, not_and]
      rintro rfl
      simp
  | cons x l ih =>
    cases r with
    | zero =>
      simp only [itCombinations, List.mem_singleton, List.length_eq_zero_iff]
      constructor
      · rintro rfl; simp
      · exact fun h => h.2
    | succ r =>
      simp only [itCombinations, List.mem_append, List.mem_map, ih]
      constructor
      · rintro (⟨v, ⟨h1, h2⟩, rfl⟩ | ⟨h1, h2⟩)
        · exact ⟨h1.cons_cons x, by simp [h2]⟩
        · exact ⟨h1.cons x, h2⟩
      · rintro ⟨h1, h2⟩
        cases h1 with
        | cons _ h => exact Or.inr ⟨h, h2⟩
        | cons_cons _ h => exact Or.inl ⟨_, ⟨h, by simpa using h2⟩, rfl⟩

private theorem mem_itPairs {α : Type} (l : List α) (hl : l.Nodup) (u v : α) :
    ((u, v) ∈ itPairs l ∨ (v, u) ∈ itPairs l) ↔ u ∈ l ∧ v ∈ l ∧ u ≠ v := by
  induction l with
  | nil => simp [itPairs]
  | cons x l ih =>
    have hx := (List.nodup_cons.1 hl).1
    have ih := ih (List.nodup_cons.1 hl).2
    simp only [itPairs, List.mem_append, List.mem_map, Prod.mk.injEq, List.mem_cons]
    constructor
    · rintro ((⟨y, hy, rfl, rfl⟩ | h) | (⟨y, hy, rfl, rfl⟩ | h))
      · exact ⟨Or.inl rfl, Or.inr hy, fun e => hx (e ▸ hy)⟩
      · obtain ⟨h1, h2, h3⟩ := ih.1 (Or.inl h)
        exact ⟨Or.inr h1, Or.inr h2, h3⟩
      · exact ⟨Or.inr hy, Or.inl rfl, fun e => hx (e ▸ hy)⟩
      · obtain ⟨h1, h2, h3⟩ := ih.1 (Or.inr h)
        exact ⟨Or.inr h1, Or.inr h2, h3⟩
    · rintro ⟨rfl | h1, rfl | h2, h3⟩
      · exact absurd rfl h3
      · exact Or.inl (Or.inl ⟨v, h2, rfl, rfl⟩)
      · exact Or.inr (Or.inl ⟨u, h1, rfl, rfl⟩)
      · rcases ih.2 ⟨h1, h2, h3⟩ with h | h
        · exact Or.inl (Or.inr h)
        · exact Or.inr (Or.inr h)

open Graph in
/-- C123, in general: the vertices of `odd_graph(k)` are the subsequences of length `k - 1` of the string of
the numbers `0, ..., 2k - 2`, and two different ones are adjacent exactly when they have no character in
common. -/
theorem C123_odd_graph_strings (k : Nat) (hk : 1 ≤ k) :
    ∃ g, oddGraph k = .ok g ∧
      (toAbs g).verts = {u | u.Sublist ((List.range (2 * k - 1)).flatMap (Nat.toDigits 10)) ∧ u.length = k - 1} ∧
      ∀ u v w, (toAbs g).weight u v = some w ↔
        w = 1 ∧ u ∈ (toAbs g).verts ∧ v ∈ (toAbs g).verts ∧ u ≠ v ∧ ∀ c ∈ u, c ∉ v := by
  rw [oddGraph, if_neg (by omega), Int.toNat_natCast]
  dsimp only
  set g : Graph (List Char) ℤ := Graph.addVertices [] (itCombinations (k - 1) (oddDigits k)) with hg
  have hmem : ∀ u, Mem g u ↔ u.Sublist (oddDigits k) ∧ u.length = k - 1 := by
    intro u
    rw [hg, mem_addVertices, mem_itCombinations]
    simp [Mem, Dict.keys]
  have hnd : (Dict.keys g).Nodup := by
    have : Good g := Good.addVertices good_empty _
    exact this.wf
  have hpair : ∀ (u v : List Char) (w : ℤ), (u, v, w) ∈ ((itPairs (Dict.keys g)).filter
      (fun p => p.1.all (fun c => decide (c ∉ p.2)))).map (fun p => (p.1, p.2, (1 : ℤ))) ↔
      w = 1 ∧ (u, v) ∈ itPairs (Dict.keys g) ∧ ∀ c ∈ u, c ∉ v := by
    intro u v w
    simp only [List.mem_map, List.mem_filter, Prod.mk.injEq, Prod.exists, List.all_eq_true, decide_eq_true_eq]
    constructor
    · rintro ⟨a, b, ⟨h1, h2⟩, rfl, rfl, rfl⟩; exact ⟨rfl, h1, h2⟩
    · rintro ⟨rfl, h1, h2⟩; exact ⟨u, v, ⟨h1, h2⟩, rfl, rfl, rfl⟩
  have hv : ∀ u, Mem (Graph.addEdges g (((itPairs (Dict.keys g)).filter (fun p => p.1.all (fun c => decide (c ∉ p.2)))).map
      (fun p => (p.1, p.2, (1 : ℤ))))) u ↔ Mem g u := by
    intro u
    rw [mem_addEdges]
    constructor
    · rintro (⟨⟨a, b, w⟩, he, hu⟩ | hu)
      · obtain ⟨-, h1, -⟩ := (hpair a b w).1 he
        have := (mem_itPairs _ hnd a b).1 (Or.inl h1)
        dsimp only at hu
        rcases hu with rfl | rfl
        · exact this.1
        · exact this.2.1
      · exact hu
    · exact Or.inr
  refine ⟨_, rfl, ?_, ?_⟩
  · ext u
    exact (hv u).trans (hmem u)
  · intro u v w
    have h := adj_addEdges_const g (((itPairs (Dict.keys g)).filter (fun p => p.1.all (fun c => decide (c ∉ p.2)))).map
      (fun p => (p.1, p.2, (1 : ℤ)))) 1 (by rintro ⟨a, b, w⟩ he; exact ((hpair a b w).1 he).1) u v
    refine Iff.trans (Eq.congr_left h) ?_
    have e0 : adj g u v = none := by rw [hg, adj_addVertices, adj_empty]
    rw [e0]
    have key : ((u, v, (1 : ℤ)) ∈ ((itPairs (Dict.keys g)).filter (fun p => p.1.all (fun c => decide (c ∉ p.2)))).map
        (fun p => (p.1, p.2, (1 : ℤ))) ∨ (v, u, (1 : ℤ)) ∈ ((itPairs (Dict.keys g)).filter
        (fun p => p.1.all (fun c => decide (c ∉ p.2)))).map (fun p => (p.1, p.2, (1 : ℤ)))) ↔
        (Mem g u ∧ Mem g v ∧ u ≠ v) ∧ ∀ c ∈ u, c ∉ v := by
      rw [hpair, hpair]
      have := mem_itPairs _ hnd u v
      constructor
      · rintro (⟨-, h1, h2⟩ | ⟨-, h1, h2⟩)
        · exact ⟨this.1 (Or.inl h1), h2⟩
        · exact ⟨this.1 (Or.inr h1), fun c hc hc' => h2 c hc' hc⟩
      · rintro ⟨h1, h2⟩
        rcases this.2 h1 with h | h
        · exact Or.inl ⟨rfl, h, h2⟩
        · exact Or.inr ⟨rfl, h, fun c hc hc' => h2 c hc' hc⟩
    have hvu := hv u
    have hvv := hv v
    split_ifs with hc
    · rw [key] at hc
      constructor
      · intro hw
        injection hw with hw
        exact ⟨hw.symm, hvu.2 hc.1.1, hvv.2 hc.1.2.1, hc.1.2.2, hc.2⟩
      · rintro ⟨rfl, -⟩; rfl
    · rw [key] at hc
      constructor
      · intro hw; cases hw
      · rintro ⟨rfl, h1, h2, h3, h4⟩
        exact absurd ⟨⟨hvu.1 h1, hvv.1 h2, h3⟩, h4⟩ hc

/-- The name of a set of numbers below 10. -/
def digitName (s : Finset Nat) : List Char := (s.sort (· ≤ ·)).map Nat.digitChar

private theorem digits_small (k : Nat) (hk : k ≤ 5) :
    (List.range (2 * k - 1)).flatMap (Nat.toDigits 10) = (List.range (2 * k - 1)).map Nat.digitChar := by
  interval_cases k <;> decide +kernel

private theorem digitChar_inj {a b : Nat} (ha : a < 10) (hb : b < 10) (h : Nat.digitChar a = Nat.digitChar b) : a = b := by
  revert h
  interval_cases a <;> interval_cases b <;> decide

open Graph in
/-- C123 for `1 <= k <= 5`: the vertices are the names of the `(k-1)`-element subsets of `{0, ..., 2k-2}`,
different subsets have different names, and two vertices are adjacent exactly when they are (different and)
disjoint.  What is missing: `k >= 6`, where the claim is false, see below. -/
theorem C123_odd_graph_partial (k : Nat) (hk : 1 ≤ k) (hk5 : k ≤ 5) :
    ∃ g, oddGraph k = .ok g ∧
      (toAbs g).verts = digitName '' {s | s ⊆ Finset.range (2 * k - 1) ∧ s.card = k - 1} ∧
      Set.InjOn digitName {s | s ⊆ Finset.range (2 * k - 1) ∧ s.card = k - 1} ∧
      ∀ s t w, s ⊆ Finset.range (2 * k - 1) → s.card = k - 1 → t ⊆ Finset.range (2 * k - 1) → t.card = k - 1 →
        ((toAbs g).weight (digitName s) (digitName t) = some w ↔ w = 1 ∧ s ≠ t ∧ Disjoint s t) := by
  obtain ⟨g, h1, h2, h3⟩ := C123_odd_graph_strings k hk
  rw [digits_small k hk5] at h2
  have hlt : ∀ s : Finset Nat, s ⊆ Finset.range (2 * k - 1) → ∀ x ∈ s, x < 10 := by
    intro s hs x hx
    have := Finset.mem_range.1 (hs hx)
    omega
  have hdisj : ∀ s t : Finset Nat, s ⊆ Finset.range (2 * k - 1) → t ⊆ Finset.range (2 * k - 1) →
      ((∀ c ∈ digitName s, c ∉ digitName t) ↔ Disjoint s t) := by
    intro s t hs ht
    rw [Finset.disjoint_left]
    unfold digitName
    simp only [List.mem_map, Finset.mem_sort, forall_exists_index, and_imp, not_exists, not_and]
    constructor
    · intro h a ha hat
      exact h _ a ha rfl a hat rfl
    · intro h c a ha hc b hb hb'
      have : b = a := digitChar_inj (hlt t ht b hb) (hlt s hs a ha) (hb'.trans hc.symm)
      subst this
      exact h ha hb
  have hinj : ∀ s t : Finset Nat, s ⊆ Finset.range (2 * k - 1) → t ⊆ Finset.range (2 * k - 1) →
      digitName s = digitName t → s = t := by
    have key : ∀ s t : Finset Nat, s ⊆ Finset.range (2 * k - 1) → t ⊆ Finset.range (2 * k - 1) →
        digitName s = digitName t → s ⊆ t := by
      intro s t hs ht h a ha
      have : Nat.digitChar a ∈ digitName s := List.mem_map.2 ⟨a, (Finset.mem_sort _).2 ha, rfl⟩
      rw [h] at this
      obtain ⟨b, hb, e⟩ := List.mem_map.1 this
      rw [Finset.mem_sort] at hb
      rwa [← digitChar_inj (hlt t ht b hb) (hlt s hs a ha) e]
    intro s t hs ht h
    exact Finset.Subset.antisymm (key s t hs ht h) (key t s ht hs h.symm)
  have hverts : (toAbs g).verts = digitName '' {s | s ⊆ Finset.range (2 * k - 1) ∧ s.card = k - 1} := by
    rw [h2]
    ext u
    simp only [Set.mem_setOf_eq, Set.mem_image]
    constructor
    · rintro ⟨hs, hl⟩
      obtain ⟨l, hl1, rfl⟩ := List.sublist_map_iff.1 hs
      have hsorted : l.Pairwise (· < ·) := List.Pairwise.sublist hl1 List.pairwise_lt_range
      have hnd : l.Nodup := hsorted.imp (fun h => ne_of_lt h)
      refine ⟨l.toFinset, ⟨?_, ?_⟩, ?_⟩
      · intro x hx
        exact Finset.mem_range.2 (List.mem_range.1 (hl1.subset (List.mem_toFinset.1 hx)))
      · rw [List.toFinset_card_of_nodup hnd]; simpa using hl
      · unfold digitName
        rw [(List.toFinset_sort (· ≤ ·) hnd).2 (hsorted.imp (fun h => le_of_lt h))]
    · rintro ⟨s, ⟨hs, hc⟩, rfl⟩
      constructor
      · unfold digitName
        apply List.Sublist.map
        apply List.sublist_of_subperm_of_pairwise (r := (· ≤ ·)) (hs₁ := Finset.pairwise_sort s (· ≤ ·))
          (hs₂ := List.pairwise_lt_range.imp (fun h => le_of_lt h))
        apply (Finset.sort_nodup s (· ≤ ·)).subperm
        intro x hx
        exact List.mem_range.2 (Finset.mem_range.1 (hs ((Finset.mem_sort _).1 hx)))
      · unfold digitName
        rw [List.length_map, Finset.length_sort, hc]
  refine ⟨g, h1, hverts, fun s hs t ht h => hinj s t hs.1 ht.1 h, ?_⟩
  intro s t w hs hsc ht htc
  rw [h3, hdisj s t hs ht]
  have hs' : digitName s ∈ (toAbs g).verts := by rw [hverts]; exact ⟨s, ⟨hs, hsc⟩, rfl⟩
  have ht' : digitName t ∈ (toAbs g).verts := by rw [hverts]; exact ⟨t, ⟨ht, htc⟩, rfl⟩
  constructor
  · rintro ⟨rfl, -, -, h4, h5⟩
    exact ⟨rfl, fun e => h4 (by rw [e]), h5⟩
  · rintro ⟨rfl, h4, h5⟩
    exact ⟨rfl, hs', ht', fun e => h4 (hinj s t hs ht e), h5⟩

private theorem sublist_between {α : Type} {a b : List α} (h : a.Sublist b) (m : Nat) (h1 : a.length ≤ m)
    (h2 : m ≤ b.length) : ∃ c, a.Sublist c ∧ c.Sublist b ∧ c.length = m := by
  induction h generalizing m with
  | slnil => exact ⟨[], List.Sublist.slnil, List.Sublist.slnil, by simp at h2; simp [h2]⟩
  | @cons a b x h ih =>
    by_cases hm : m ≤ b.length
    · obtain ⟨c, c1, c2, c3⟩ := ih m h1 hm
      exact ⟨c, c1, c2.cons x, c3⟩
    · refine ⟨x :: b, h.cons x, List.Sublist.refl _, ?_⟩
      simp only [List.length_cons] at h2 ⊢
      omega
  | @cons_cons a b x h ih =>
    simp only [List.length_cons] at h1 h2
    obtain ⟨c, c1, c2, c3⟩ := ih (m - 1) (by omega) (by omega)
    exact ⟨x :: c, c1.cons_cons x, c2.cons_cons x, by simp only [List.length_cons]; omega⟩

open Graph in
/-- C123 is false for every `k >= 6`: some vertex of `odd_graph(k)` has the character `1` twice, it is not the
name of a set. -/
theorem C123_odd_graph_violation (k : Nat) (hk : 6 ≤ k) :
    ∃ g, oddGraph k = .ok g ∧ ∃ u ∈ (toAbs g).verts, ¬ u.Nodup := by
  obtain ⟨g, h1, h2, -⟩ := C123_odd_graph_strings k (by omega)
  refine ⟨g, h1, ?_⟩
  have h11 : ['1', '1'].Sublist ((List.range (2 * k - 1)).flatMap (Nat.toDigits 10)) := by
    have : List.range (2 * k - 1) = List.range 11 ++ List.range' 11 (2 * k - 12) := by
      rw [List.range_eq_range', List.range_eq_range', show 2 * k - 1 = 11 + (2 * k - 12) by omega,
        ← List.range'_append_1]
    rw [this, List.flatMap_append]
    exact List.Sublist.trans (by decide +kernel) (List.sublist_append_left _ _)
  have hlen : k - 1 ≤ ((List.range (2 * k - 1)).flatMap (Nat.toDigits 10)).length := by
    have key : ∀ l : List Nat, l.length ≤ (l.flatMap (Nat.toDigits 10)).length := by
      intro l
      induction l with
      | nil => simp
      | cons a l ih =>
        rw [List.flatMap_cons, List.length_append, List.length_cons]
        have : 0 < (Nat.toDigits 10 a).length := Nat.length_toDigits_pos
        omega
    have := key (List.range (2 * k - 1))
    rw [List.length_range] at this
    omega
  obtain ⟨c, c1, c2, c3⟩ := sublist_between h11 (k - 1) (by simp; omega) hlen
  refine ⟨c, by rw [h2]; exact ⟨c2, c3⟩, fun hnd => ?_⟩
  have := hnd.sublist c1
  simp at this

theorem C123_odd_graph_error (k : Int) (hk : k ≤ 0) : oddGraph k = .error .valueError := by
  rw [oddGraph, if_pos hk]

example : oddGraph 2 = .ok [(['0'], [(['1'], 1), (['2'], 1)]), (['1'], [(['0'], 1), (['2'], 1)]),
    (['2'], [(['0'], 1), (['1'], 1)])] := by decide +kernel

/-! ## C124: load_graph and load_dimacs_graph -/

private theorem parseAll_ok (toInt : String → Option Int) (l : List String) (is : List Int)
    (h : l.map toInt = is.map some) : parseAll toInt l = .ok is := by
  induction l generalizing is with
  | nil => cases is with
    | nil => rfl
    | cons => simp at h
  | cons t l ih => cases is with
    | nil => simp at h
    | cons i is =>
      simp only [List.map_cons, List.cons.injEq] at h
      rw [parseAll, h.1]
      dsimp only
      rw [ih is h.2]

private theorem parseAll_cases (toInt : String → Option Int) (l : List String) :
    (∃ is : List Int, l.map toInt = is.map some ∧ parseAll toInt l = .ok is) ∨
      parseAll toInt l = .error .valueError := by
  induction l with
  | nil => exact Or.inl ⟨[], rfl, rfl⟩
  | cons t l ih =>
    rw [parseAll]
    cases h : toInt t with
    | none => exact Or.inr rfl
    | some i =>
      dsimp only
      rcases ih with ⟨is, h1, h2⟩ | h2
      · rw [h2]
        exact Or.inl ⟨i :: is, by simp [h, h1], rfl⟩
      · rw [h2]; exact Or.inr rfl

private theorem loadLines_ok (toInt : String → Option Int) (lines : List (List String)) (E : List (Int × Int))
    (h : List.Forall₂ (fun l e => l.map toInt = [some e.1, some e.2]) lines E) (g : Graph Int ℤ) :
    loadLines toInt lines g = .ok (Graph.addEdges g (E.map (fun e => (e.1, e.2, 1)))) := by
  induction h generalizing g with
  | nil => rfl
  | @cons l e ls E h _ ih =>
    rw [loadLines, parseAll_ok toInt l [e.1, e.2] (by simpa using h)]
    exact ih _

private theorem loadLines_error (toInt : String → Option Int) (lines : List (List String)) (l : List String)
    (hl : l ∈ lines) (h : ∀ u v, l.map toInt ≠ [some u, some v]) (g : Graph Int ℤ) :
    loadLines toInt lines g = .error .valueError := by
  induction lines generalizing g with
  | nil => simp at hl
  | cons a ls ih =>
    rw [loadLines]
    rcases parseAll_cases toInt a with ⟨is, h1, h2⟩ | h2
    · rw [h2]
      match is, h1 with
      | [], _ => rfl
      | [_], _ => rfl
      | [u, v], h1 =>
        dsimp only
        rcases List.mem_cons.1 hl with rfl | hl
        · exact absurd h1 (h u v)
        · exact ih hl _
      | _ :: _ :: _ :: _, _ => rfl
    · rw [h2]

open Graph in
private theorem addEdges_empty_spec (E : List (Int × Int)) :
    (toAbs (Graph.addEdges ([] : Graph Int ℤ) (E.map (fun e => (e.1, e.2, 1))))).verts
      = {x | ∃ e ∈ E, x = e.1 ∨ x = e.2} ∧
    ∀ u v w, (toAbs (Graph.addEdges ([] : Graph Int ℤ) (E.map (fun e => (e.1, e.2, 1))))).weight u v = some w ↔
      w = 1 ∧ ((u, v) ∈ E ∨ (v, u) ∈ E) := by
  constructor
  · ext x
    refine (mem_addEdges _ _ x).trans ?_
    simp [Mem, Dict.keys]
  · intro u v w
    have h := adj_addEdges_const ([] : Graph Int ℤ) (E.map (fun e => (e.1, e.2, 1))) 1
      (by intro e he; obtain ⟨a, -, rfl⟩ := List.mem_map.1 he; rfl) u v
    refine Iff.trans (Eq.congr_left h) ?_
    rw [adj_empty]
    have : ((u, v, (1 : ℤ)) ∈ E.map (fun e => (e.1, e.2, (1 : ℤ))) ∨ (v, u, (1 : ℤ)) ∈ E.map (fun e => (e.1, e.2, (1 : ℤ))))
        ↔ ((u, v) ∈ E ∨ (v, u) ∈ E) := by
      simp
    split_ifs with hc
    · rw [this] at hc
      constructor
      · intro hw; injection hw with hw; exact ⟨hw.symm, hc⟩
      · rintro ⟨rfl, -⟩; rfl
    · rw [this] at hc
      constructor
      · intro hw; cases hw
      · rintro ⟨-, h⟩; exact absurd h hc

open Graph in
/-- C124: `load_graph`, if every line holds two numbers, gives the graph of exactly these edges, weight 1. -/
theorem C124_load_graph (toInt : String → Option Int) (lines : List (List String)) (E : List (Int × Int))
    (h : List.Forall₂ (fun l e => l.map toInt = [some e.1, some e.2]) lines E) :
    ∃ g, loadGraph toInt lines = .ok g ∧ (toAbs g).verts = {x | ∃ e ∈ E, x = e.1 ∨ x = e.2} ∧
      ∀ u v w, (toAbs g).weight u v = some w ↔ w = 1 ∧ ((u, v) ∈ E ∨ (v, u) ∈ E) :=
  ⟨_, loadLines_ok toInt lines E h _, (addEdges_empty_spec E).1, (addEdges_empty_spec E).2⟩

/-- C124: any other line, also an empty one at the end of the file, makes `load_graph` raise ValueError. -/
theorem C124_load_graph_error (toInt : String → Option Int) (lines : List (List String)) (l : List String)
    (hl : l ∈ lines) (h : ∀ u v, l.map toInt ≠ [some u, some v]) :
    loadGraph toInt lines = .error .valueError :=
  loadLines_error toInt lines l hl h _

open Graph in
/-- C124: `load_dimacs_graph` gives the graph of the edges on the lines that start with `e`; the other lines
are skipped. -/
theorem C124_load_dimacs_graph (toInt : String → Option Int) (lines : List (List String)) (E : List (Int × Int))
    (h : List.Forall₂ (fun l e => ∃ t, l.map toInt = [t, some e.1, some e.2])
      (lines.filter (fun l => (l.headD "").toList.head? = some 'e')) E) :
    ∃ g, loadDimacsGraph toInt lines = .ok g ∧ (toAbs g).verts = {x | ∃ e ∈ E, x = e.1 ∨ x = e.2} ∧
      ∀ u v w, (toAbs g).weight u v = some w ↔ w = 1 ∧ ((u, v) ∈ E ∨ (v, u) ∈ E) := by
  refine ⟨_, loadLines_ok toInt _ E ?_ _, (addEdges_empty_spec E).1, (addEdges_empty_spec E).2⟩
  rw [List.forall₂_map_left_iff]
  refine h.imp (fun l e => ?_)
  rintro ⟨t, ht⟩
  rw [List.map_tail, ht]
  rfl

/-- C124: a line that starts with `e` and does not hold exactly two numbers after the first token makes
`load_dimacs_graph` raise ValueError. -/
theorem C124_load_dimacs_graph_error (toInt : String → Option Int) (lines : List (List String)) (l : List String)
    (hl : l ∈ lines) (he : (l.headD "").toList.head? = some 'e') (h : ∀ t u v, l.map toInt ≠ [t, some u, some v]) :
    loadDimacsGraph toInt lines = .error .valueError := by
  refine loadLines_error toInt _ l.tail (List.mem_map.2 ⟨l, List.mem_filter.2 ⟨hl, by simpa using he⟩, rfl⟩) ?_ _
  intro u v hc
  cases l with
  | nil => simp at hc
  | cons t l => exact h (toInt t) u v (by rw [List.map_cons]; exact congrArg _ hc)

example : loadDimacsGraph (fun t => if t = "1" then some 1 else if t = "2" then some 2 else if t = "3" then some 3 else none)
    [["c", "a"], ["p", "edge", "3", "2"], ["e", "1", "2"], ["e", "3", "2"]]
    = .ok [(1, [(2, 1)]), (2, [(1, 1), (3, 1)]), (3, [(2, 1)])] := by decide +kernel

/-! ## C125: BITSieve.update -/

section
open BitSieve Finset

private def fsum (f : Nat → Int) (a b : Nat) : Int := ∑ k ∈ Ioc a b, f k

private theorem fsum_add (f : Nat → Int) {a b c : Nat} (h1 : a ≤ b) (h2 : b ≤ c) :
    fsum f a c = fsum f a b + fsum f b c := by
  unfold fsum
  rw [← sum_union]
  · congr 1
    ext k; simp only [mem_union, mem_Ioc]; omega
  · rw [disjoint_left]
    intro k h1 h2
    rw [mem_Ioc] at h1 h2
    omega

private def fblock (f : Nat → Int) (i j : Nat) : Int := fsum f ((j - 1) * 2 ^ i) (j * 2 ^ i)

private theorem fblock_succ (f : Nat → Int) (i j : Nat) (hj : 1 ≤ j) :
    fblock f (i + 1) j = fblock f i (2 * j - 1) + fblock f i (2 * j) := by
  unfold fblock
  obtain ⟨j, rfl⟩ : ∃ j', j = j' + 1 := ⟨j - 1, by omega⟩
  have e1 : (j + 1 - 1) * 2 ^ (i + 1) = (2 * (j + 1) - 1 - 1) * 2 ^ i := by
    rw [Nat.pow_succ]; simp only [Nat.add_sub_cancel]
    rw [show 2 * (j + 1) - 1 - 1 = 2 * j by omega]; ring
  have e2 : (j + 1) * 2 ^ (i + 1) = 2 * (j + 1) * 2 ^ i := by rw [Nat.pow_succ]; ring
  rw [e1, e2]
  apply fsum_add
  · exact Nat.mul_le_mul_right _ (by omega)
  · exact Nat.mul_le_mul_right _ (by omega)

private theorem fblock_zero (f : Nat → Int) (j : Nat) (hj : 1 ≤ j) : fblock f 0 j = f j := by
  unfold fblock fsum
  have : Ioc ((j - 1) * 2 ^ 0) (j * 2 ^ 0) = {j} := by
    ext k; simp only [mem_Ioc, mem_singleton, pow_zero, mul_one]; omega
  rw [this, sum_singleton]

private theorem updateLevel_spec (f : Nat → Int) (n i : Nat) (hi : 1 ≤ i) (k j : Nat) (hj : 1 ≤ j)
    (hk : j + k = n / 2 ^ i + 1) (A : Table)
    (hA : ∀ i' j', 1 ≤ j' → (i' < i ∧ j' ≤ n / 2 ^ i') ∨ (i' = i ∧ j' < j) → A (i', j') = some (fblock f i' j')) :
    ∃ A', updateLevel i (List.range' j k) A = .ok A' ∧ (∀ i' j', i' ≠ i → A' (i', j') = A (i', j')) ∧
      ∀ i' j', 1 ≤ j' → i' < i + 1 → j' ≤ n / 2 ^ i' → A' (i', j') = some (fblock f i' j') := by
  induction k generalizing j A with
  | zero =>
    refine ⟨A, rfl, fun _ _ _ => rfl, fun i' j' h1 h2 h3 => hA i' j' h1 ?_⟩
    by_cases he : i' = i
    · subst he; exact .inr ⟨rfl, by omega⟩
    · exact .inl ⟨by omega, h3⟩
  | succ k ih =>
    rw [List.range'_succ]
    unfold updateLevel
    have h2j : 2 * j ≤ n / 2 ^ (i - 1) := by
      have : n / 2 ^ i = n / 2 ^ (i - 1) / 2 := by
        rw [Nat.div_div_eq_div_mul, ← Nat.pow_succ]
        congr 2; omega
      omega
    rw [hA _ _ (by omega) (.inl ⟨by omega, by omega⟩), hA _ _ (by omega) (.inl ⟨by omega, by omega⟩)]
    dsimp only
    have hbc := fblock_succ f (i - 1) j hj
    rw [Nat.sub_add_cancel hi] at hbc
    rw [← hbc]
    obtain ⟨A', h1, h2, h3⟩ := ih (j + 1) (by omega) (by omega) (put A (i, j) (fblock f i j)) (by
      intro i' j' hj' hc
      unfold put
      by_cases he : (i', j') = (i, j)
      · rw [if_pos he]
        injection he with e1 e2
        rw [e1, e2]
      · rw [if_neg he]
        refine hA i' j' hj' ?_
        rcases hc with hc | ⟨rfl, hc⟩
        · exact .inl hc
        · refine .inr ⟨rfl, ?_⟩
          rcases Nat.lt_or_ge j' j with h | h
          · exact h
          · exact absurd (by rw [show j' = j by omega]) he)
    refine ⟨A', h1, fun i' j' hne => ?_, h3⟩
    rw [h2 i' j' hne]
    unfold put
    rw [if_neg]
    intro he
    injection he with e1 _
    exact hne e1

private theorem updateLevels_spec (f : Nat → Int) (n d i : Nat) (hi : 1 ≤ i) (hd : n < 2 ^ (i + d)) (A : Table)
    (hA : ∀ i' j', 1 ≤ j' → i' < i → j' ≤ n / 2 ^ i' → A (i', j') = some (fblock f i' j')) :
    ∃ A', updateLevels n i A = .ok A' ∧ (∀ j', A' (0, j') = A (0, j')) ∧
      ∀ i' j', 1 ≤ j' → j' ≤ n / 2 ^ i' → A' (i', j') = some (fblock f i' j') := by
  induction d generalizing i A with
  | zero =>
    have h0 : n / 2 ^ i = 0 := Nat.div_eq_of_lt (by simpa using hd)
    rw [updateLevels, dif_neg (by rw [Nat.shiftRight_eq_div_pow, h0]; simp)]
    refine ⟨A, rfl, fun _ => rfl, fun i' j' h1 h2 => hA i' j' h1 ?_ h2⟩
    by_contra hc
    have := Nat.div_le_div_left (a := n) (Nat.pow_le_pow_right (n := 2) (by omega) (Nat.le_of_not_lt hc)) (Nat.two_pow_pos i)
    omega
  | succ d ih =>
    by_cases h0 : n / 2 ^ i = 0
    · rw [updateLevels, dif_neg (by rw [Nat.shiftRight_eq_div_pow, h0]; simp)]
      refine ⟨A, rfl, fun _ => rfl, fun i' j' h1 h2 => hA i' j' h1 ?_ h2⟩
      by_contra hc
      have := Nat.div_le_div_left (a := n) (Nat.pow_le_pow_right (n := 2) (by omega) (Nat.le_of_not_lt hc)) (Nat.two_pow_pos i)
      omega
    · rw [updateLevels, dif_pos (by rw [Nat.shiftRight_eq_div_pow]; exact h0)]
      obtain ⟨A1, h1, h2, h3⟩ := updateLevel_spec f n i hi (n / 2 ^ i) 1 (le_refl _) (by omega) A (by
        intro i' j' hj' hc
        rcases hc with hc | hc
        · exact hA i' j' hj' hc.1 hc.2
        · omega)
      have e : Sieves.pyRange 1 (n >>> i + 1) = List.range' 1 (n / 2 ^ i) := by
        rw [Sieves.pyRange, Nat.shiftRight_eq_div_pow, Nat.add_sub_cancel]
      rw [e, h1]
      dsimp only
      obtain ⟨A2, g1, g2, g3⟩ := ih (i + 1) (by omega) (by rw [show i + 1 + d = i + (d + 1) by omega]; exact hd) A1 h3
      exact ⟨A2, g1, fun j' => (g2 j').trans (h2 0 j' (by omega)), g3⟩

private theorem sumLoop_fspec (f : Nat → Int) (n : Nat) (A : Table)
    (h : ∀ i' j', 1 ≤ j' → j' ≤ n / 2 ^ i' → A (i', j') = some (fblock f i' j')) (m i : Nat) (t : Int)
    (hm : m * 2 ^ i ≤ n) : sumLoop A m i t = .ok (t + fsum f 0 (m * 2 ^ i)) := by
  induction m using Nat.strong_induction_on generalizing i t with
  | _ m ih =>
    rw [sumLoop]
    by_cases h0 : m = 0
    · subst h0
      simp [fsum]
    · rw [dif_pos h0]
      have hpow : 2 ^ (i + 1) = 2 * 2 ^ i := by rw [Nat.pow_succ]; ring
      have hle : m / 2 * 2 ^ (i + 1) ≤ m * 2 ^ i := by
        rw [hpow, ← mul_assoc]
        exact Nat.mul_le_mul_right _ (by omega)
      by_cases ho : m % 2 = 1
      · rw [if_pos ho, h i m (by omega) (by
          rw [Nat.le_div_iff_mul_le (Nat.two_pow_pos i)]; exact hm)]
        dsimp only
        rw [ih (m / 2) (by omega) (i + 1) _ (by omega)]
        have e : m / 2 * 2 ^ (i + 1) = (m - 1) * 2 ^ i := by
          rw [hpow, ← mul_assoc]
          congr 1; omega
        rw [e, fsum_add f (Nat.zero_le _) (Nat.mul_le_mul_right (2 ^ i) (by omega : m - 1 ≤ m))]
        unfold fblock
        congr 1; ring
      · rw [if_neg ho, ih (m / 2) (by omega) (i + 1) _ (by omega)]
        have e : m / 2 * 2 ^ (i + 1) = m * 2 ^ i := by
          rw [hpow, ← mul_assoc]
          congr 1; omega
        rw [e]

/-- C125: whatever values `f(1), ..., f(n)` have been stored at level 0 (and whatever the upper levels hold),
`update` succeeds, leaves level 0 alone, and afterwards `partial_sum(m)` is `f(1) + ... + f(m)`. -/
theorem C125_update (s : Sieve) (f : Nat → Int) (hf : ∀ j, 1 ≤ j → j ≤ s.n → s.A (0, j) = some (f j)) :
    ∃ s', update s = .ok s' ∧ s'.n = s.n ∧ (∀ j, s'.A (0, j) = s.A (0, j)) ∧
      ∀ m, m ≤ s.n → partialSum s' m = .ok (∑ k ∈ Icc 1 m, f k) := by
  obtain ⟨A', h1, h2, h3⟩ := updateLevels_spec f s.n s.n 1 (le_refl _)
    (lt_trans Nat.lt_two_pow_self (Nat.pow_lt_pow_right (by omega) (by omega))) s.A (by
      intro i' j' hj' hi' hn
      have : i' = 0 := by omega
      subst this
      rw [fblock_zero f j' hj']
      exact hf j' hj' (by simpa using hn))
  refine ⟨⟨A', s.n, s.parent⟩, by rw [update, h1], rfl, h2, fun m hm => ?_⟩
  rw [partialSum, sumLoop_fspec f s.n A' h3 m 0 0 (by simpa using hm), zero_add, pow_zero, mul_one]
  rfl

example : ∃ s', update ⟨fun k => if k.1 = 0 then some (k.2 * k.2) else some 7, 11, fun _ => none⟩ = .ok s' ∧
    partialSum s' 11 = .ok 506 := by
  obtain ⟨s', h1, -, -, h2⟩ := C125_update ⟨fun k => if k.1 = 0 then some (k.2 * k.2) else some 7, 11, fun _ => none⟩
    (fun j => j * j) (fun j _ _ => rfl)
  exact ⟨s', h1, (h2 11 (le_refl _)).trans (by decide +kernel)⟩

end

/-! ## C126: reflected operators and items of matrices -/

section
open Matrices

/-- C126: `other + self` and `other - self` through the reflected operators. -/
theorem C126_radd_rsub {r c : ℕ} (hr : 0 < r) (A B : Matrix (Fin r) (Fin c) ℤ) :
    radd (rowsOf A) (rowsOf B) = .ok (rowsOf (B + A)) ∧ rsub (rowsOf A) (rowsOf B) = .ok (rowsOf (B - A)) := by
  constructor
  · rw [radd, C51_add hr, add_comm]
  · rw [rsub, C51_neg hr]
    dsimp only
    rw [C51_add hr, neg_add_eq_sub]

/-- C126: `A.__rmul__(B)` of square matrices is the product `A * B`, not `B * A`. -/
theorem C126_rmul_partial {n : ℕ} (hn : 0 < n) (A B : Matrix (Fin n) (Fin n) ℤ) :
    rmul (rowsOf A) (rowsOf B) = .ok (rowsOf (A * B)) := by
  rw [rmul, rowsOf_eq A, rowsOf_eq B, nrows_table, nrows_table, ncols_table hn, ncols_table hn, if_neg (by simp),
    fill_ok (fun i j => ∑ k ∈ Finset.range n, extend A i k * extend B k j) (fun i j R hi hj => by rw [dot_ok A B hi hj]; rfl)]
  show construct _ = _
  rw [construct_table hn, rowsOf_table (M := A * B) (fun i j => ?_)]
  rw [Matrix.mul_apply, Finset.sum_range]
  exact Finset.sum_congr rfl (fun k _ => by rw [extend_val, extend_val])

theorem C126_rmul_violation : ∃ A B : Matrix (Fin 2) (Fin 2) ℤ, rmul (rowsOf A) (rowsOf B) ≠ .ok (rowsOf (B * A)) := by
  refine ⟨!![1, 1; 0, 1], !![1, 0; 1, 1], ?_⟩
  decide +kernel

private theorem pyPos_nonneg (len i : Nat) (h : i < len) : pyPos len i = .ok i := by
  rw [pyPos, if_pos (by omega), if_pos (by omega), Int.toNat_natCast]

private theorem pyPos_neg (len i : Nat) (h : i < len) : pyPos len ((i : Int) - len) = .ok i := by
  rw [pyPos, if_neg (by omega), if_pos (by omega)]
  congr 1
  omega

private theorem pyPos_error (len : Nat) (i : Int) (h : i < -(len : Int) ∨ (len : Int) ≤ i) : pyPos len i = .error .indexError := by
  rw [pyPos]
  by_cases h0 : 0 ≤ i
  · rw [if_pos h0, if_neg (by omega)]
  · rw [if_neg h0, if_neg (by omega)]

private theorem rowsOf_length {r c : ℕ} (A : Matrix (Fin r) (Fin c) ℤ) : (rowsOf A).length = r := by
  simp [rowsOf]

private theorem rowsOf_getD {r c : ℕ} (A : Matrix (Fin r) (Fin c) ℤ) (i : Fin r) :
    (rowsOf A).getD i [] = List.ofFn (A i) := by
  simp [rowsOf]

/-- C126: reading an item, the indices counted from either end. -/
theorem C126_getitem {r c : ℕ} (A : Matrix (Fin r) (Fin c) ℤ) (i : Fin r) (j : Fin c) (a b : Int)
    (ha : a = i ∨ a = (i : Int) - r) (hb : b = j ∨ b = (j : Int) - c) : getItem (rowsOf A) a b = .ok (A i j) := by
  have h1 : pyPos r a = .ok i := by
    rcases ha with rfl | rfl
    · exact pyPos_nonneg r i i.2
    · exact pyPos_neg r i i.2
  have h2 : pyPos c b = .ok j := by
    rcases hb with rfl | rfl
    · exact pyPos_nonneg c j j.2
    · exact pyPos_neg c j j.2
  rw [getItem, rowsOf_length, h1]
  dsimp only
  rw [rowsOf_getD, List.length_ofFn, h2]
  simp

/-- C126: writing an item changes this item and no other. -/
theorem C126_setitem {r c : ℕ} (A : Matrix (Fin r) (Fin c) ℤ) (i : Fin r) (j : Fin c) (a b : Int) (x : ℤ)
    (ha : a = i ∨ a = (i : Int) - r) (hb : b = j ∨ b = (j : Int) - c) :
    setItem (rowsOf A) a b x = .ok (rowsOf (Matrix.of fun s t => if s = i ∧ t = j then x else A s t)) := by
  have h1 : pyPos r a = .ok i := by
    rcases ha with rfl | rfl
    · exact pyPos_nonneg r i i.2
    · exact pyPos_neg r i i.2
  have h2 : pyPos c b = .ok j := by
    rcases hb with rfl | rfl
    · exact pyPos_nonneg c j j.2
    · exact pyPos_neg c j j.2
  rw [setItem, rowsOf_length, h1]
  dsimp only
  rw [rowsOf_getD, List.length_ofFn, h2]
  dsimp only
  congr 1
  apply List.ext_getElem
  · simp [rowsOf]
  · intro s hs1 hs2
    have hs : s < r := by simpa [rowsOf] using hs2
    rw [List.getElem_set]
    apply List.ext_getElem
    · split_ifs <;> simp [rowsOf]
    · intro t ht1 ht2
      have ht : t < c := by simpa [rowsOf] using ht2
      split_ifs with hsi
      · subst hsi
        by_cases htj : j.1 = t
        · subst htj; simp [rowsOf]
        · have : (⟨t, ht⟩ : Fin c) ≠ j := fun e => htj (by rw [← e])
          simp [rowsOf, List.getElem_set, htj, this]
      · have : (⟨s, hs⟩ : Fin r) ≠ i := fun e => hsi (by rw [← e])
        simp [rowsOf, this]

/-- C126: an index outside of the matrix raises IndexError, for reading and for writing. -/
theorem C126_item_error {r c : ℕ} (A : Matrix (Fin r) (Fin c) ℤ) (a b : Int) (x : ℤ)
    (h : a < -(r : Int) ∨ (r : Int) ≤ a ∨ b < -(c : Int) ∨ (c : Int) ≤ b) :
    getItem (rowsOf A) a b = .error .indexError ∧ setItem (rowsOf A) a b x = .error .indexError := by
  rw [getItem, setItem, rowsOf_length]
  by_cases ha : a < -(r : Int) ∨ (r : Int) ≤ a
  · rw [pyPos_error r a ha]
    exact ⟨rfl, rfl⟩
  · have hb : b < -(c : Int) ∨ (c : Int) ≤ b := by tauto
    have : ∃ i : Fin r, pyPos r a = .ok i := by
      by_cases h0 : 0 ≤ a
      · refine ⟨⟨a.toNat, by omega⟩, ?_⟩
        have := pyPos_nonneg r a.toNat (by omega)
        rwa [Int.toNat_of_nonneg h0] at this
      · refine ⟨⟨(a + r).toNat, by omega⟩, ?_⟩
        rw [pyPos, if_neg h0, if_pos (by omega)]
    obtain ⟨i, hi⟩ := this
    rw [hi]
    dsimp only
    rw [rowsOf_getD, List.length_ofFn, pyPos_error c b hb]
    exact ⟨rfl, rfl⟩

example : getItem [[1, 2], [3, 4]] (-1) 0 = .ok 3 ∧ setItem [[1, 2], [3, 4]] 0 (-1) 9 = .ok [[1, 9], [3, 4]] ∧
    rmul [[1, 1], [0, 1]] [[1, 0], [1, 1]] = .ok [[2, 1], [1, 1]] := by decide +kernel

end

end Rosemary.Props
