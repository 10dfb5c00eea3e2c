import Verif.Model.Progressions
import Mathlib.Tactic.Linarith
import Mathlib.Tactic.Ring
import Mathlib.Data.List.GetD

/-!
# Properties of arithmetic progressions (C77, C89)
-/

namespace Rosemary.Props

open Rosemary.Progressions

theorem at_mono {A : List ℤ} (hA : A.Pairwise (· ≤ ·)) {i j : ℕ} (hij : i ≤ j) (hj : j < A.length) : at' A i ≤ at' A j := by
  rcases Nat.eq_or_lt_of_le hij with rfl | h
  · exact le_refl _
  · rw [at', at', List.getD_eq_getElem _ _ (by omega), List.getD_eq_getElem _ _ hj]
    exact List.pairwise_iff_getElem.1 hA i j (by omega) hj h

theorem at_lt {A : List ℤ} (hA : A.Pairwise (· < ·)) {i j : ℕ} (hij : i < j) (hj : j < A.length) : at' A i < at' A j := by
  rw [at', at', List.getD_eq_getElem _ _ (by omega), List.getD_eq_getElem _ _ hj]
  exact List.pairwise_iff_getElem.1 hA i j (by omega) hj hij

theorem at_mem {A : List ℤ} {i : ℕ} (h : i < A.length) : at' A i ∈ A := by
  rw [at', List.getD_eq_getElem _ _ h]; exact List.getElem_mem h

theorem mem_at {A : List ℤ} {x : ℤ} (h : x ∈ A) : ∃ i, i < A.length ∧ at' A i = x := by
  obtain ⟨i, hi, rfl⟩ := List.getElem_of_mem h
  exact ⟨i, hi, by rw [at', List.getD_eq_getElem _ _ hi]⟩

theorem apScan_spec {A : List ℤ} (hA : A.Pairwise (· ≤ ·)) {j : ℕ} (hj : j < A.length) (i1 k : ℕ) (hi : i1 ≤ j) (hk : j < k)
    (hinv : ∀ i', i' < i1 → ∀ k', j < k' → k' < k → at' A i' + at' A k' < 2 * at' A j) :
    (∀ i k', apScan A j i1 k = some (i, k') → i < j ∧ j < k' ∧ k' < A.length ∧ at' A i + at' A k' = 2 * at' A j) ∧
    (apScan A j i1 k = none → ∀ i', i' < i1 → ∀ k', j < k' → k' < A.length → at' A i' + at' A k' ≠ 2 * at' A j) := by
  induction i1, k using apScan.induct A j with
  | case1 k =>
    rw [apScan]
    exact ⟨by simp, fun _ i' h => by omega⟩
  | case2 i k h1 h2 ih =>
    rw [apScan, if_pos h1, if_pos h2]
    refine ih hi (by omega) (fun i' hi' k' hk' hlt => ?_)
    rcases Nat.lt_succ_iff_lt_or_eq.1 hlt with h | rfl
    · exact hinv i' hi' k' hk' h
    · have := at_mono hA (show i' ≤ i by omega) (by omega)
      linarith
  | case3 i k h1 h2 h3 ih =>
    rw [apScan, if_pos h1, if_neg h2, if_pos h3]
    obtain ⟨k1, k2⟩ := ih (by omega) hk (fun i' hi' => hinv i' (by omega))
    refine ⟨k1, fun hn i' hi' k' hk' hlt => ?_⟩
    rcases Nat.lt_succ_iff_lt_or_eq.1 hi' with h | rfl
    · exact k2 hn i' h k' hk' hlt
    · by_cases hc : k' < k
      · exact (hinv i' (by omega) k' hk' hc).ne
      · have := at_mono hA (not_lt.1 hc) hlt
        exact ne_of_gt (by linarith)
  | case4 i k h1 h2 h3 =>
    rw [apScan, if_pos h1, if_neg h2, if_neg h3]
    refine ⟨fun i' k' e => ?_, by simp⟩
    simp only [Option.some.injEq, Prod.mk.injEq] at e
    obtain ⟨rfl, rfl⟩ := e
    exact ⟨by omega, hk, h1, by linarith⟩
  | case5 i k h1 =>
    rw [apScan, if_neg h1]
    exact ⟨by simp, fun _ i' hi' k' hk' hlt => (hinv i' hi' k' hk' (by omega)).ne⟩

/-! ## C77 -/

/-- C77: on a sorted list the indices returned are increasing and those of a progression. -/
theorem C77_found (A : List ℤ) (hA : A.Pairwise (· ≤ ·)) (i j k : ℕ) (h : hasThreeTermApIndices A = some (i, j, k)) :
    i < j ∧ j < k ∧ ∃ a b c, A[i]? = some a ∧ A[j]? = some b ∧ A[k]? = some c ∧ c - b = b - a ∧
      hasThreeTermAp A = some (a, b, c) := by
  have h' := h
  rw [hasThreeTermApIndices, List.findSome?_eq_some_iff] at h
  obtain ⟨l1, j', l2, e1, e2, -⟩ := h
  have hj : j' ∈ List.range' 1 (A.length - 1) := by rw [e1]; simp
  rw [List.mem_range'_1] at hj
  rw [Option.map_eq_some_iff] at e2
  obtain ⟨⟨i', k'⟩, e3, e4⟩ := e2
  simp only [Prod.mk.injEq] at e4
  obtain ⟨rfl, rfl, rfl⟩ := e4
  obtain ⟨m1, m2, m3, m4⟩ := (apScan_spec hA (by omega) j' (j' + 1) (le_refl _) (by omega) (fun _ _ _ _ _ => by omega)).1 _ _ e3
  have hg : ∀ i, i < A.length → A[i]? = some (at' A i) := fun i hi => by
    rw [at', List.getD_eq_getElem _ _ hi, List.getElem?_eq_getElem hi]
  refine ⟨m1, m2, at' A i', at' A j', at' A k', hg _ (by omega), hg _ (by omega), hg _ m3, by linarith, ?_⟩
  rw [hasThreeTermAp, h']; rfl

/-- C77: `False` is returned exactly when there is no progression. -/
theorem C77_not_found (A : List ℤ) (hA : A.Pairwise (· ≤ ·)) :
    hasThreeTermApIndices A = none ↔ ¬ ∃ (i j k : ℕ) (a b c : ℤ), i < j ∧ j < k ∧ A[i]? = some a ∧ A[j]? = some b ∧ A[k]? = some c ∧
      c - b = b - a := by
  constructor
  · rintro h ⟨i, j, k, a, b, c, hij, hjk, ha, hb, hc, e⟩
    rw [hasThreeTermApIndices, List.findSome?_eq_none_iff] at h
    have hk : k < A.length := (List.getElem?_eq_some_iff.1 hc).1
    have h1 := h j (by rw [List.mem_range'_1]; omega)
    rw [Option.map_eq_none_iff] at h1
    have h2 := (apScan_spec hA (by omega) j (j + 1) (le_refl _) (by omega) (fun _ _ _ _ _ => by omega)).2 h1 i hij k hjk hk
    apply h2
    rw [at', at', at', List.getD_eq_getElem?_getD, List.getD_eq_getElem?_getD, List.getD_eq_getElem?_getD, ha, hb, hc]
    simp only [Option.getD_some]
    linarith
  · intro h
    by_contra hn
    obtain ⟨⟨i, j, k⟩, hr⟩ := Option.ne_none_iff_exists'.1 hn
    obtain ⟨h1, h2, a, b, c, h3, h4, h5, h6, -⟩ := C77_found A hA i j k hr
    exact h ⟨i, j, k, a, b, c, h1, h2, h3, h4, h5, h6⟩

/-- C77: the two forms of the result. -/
theorem C77_elements (A : List ℤ) : (hasThreeTermAp A = none ↔ hasThreeTermApIndices A = none) := by
  rw [hasThreeTermAp, Option.map_eq_none_iff]

example : hasThreeTermApIndices [2, 3, 5, 7, 11, 13, 17, 19] = some (1, 2, 3) := by decide +kernel
example : hasThreeTermAp [2, 3, 5, 7, 11, 13, 17, 19] = some (3, 5, 7) := by decide +kernel
example : hasThreeTermAp [2, 3, 7, 13] = none := by decide +kernel
/-- On a list that is not sorted a progression can be missed. -/
example : hasThreeTermAp [3, 5, 1, 2] = none ∧ (3 : ℤ) - 2 = 2 - 1 := by decide +kernel

/-! ## C89: `longest_ap` -/

/-- The progression from `a` with difference `d` has exactly `m` members in the list. -/
def Run (A : List ℤ) (a d : ℤ) (m : ℕ) : Prop := (∀ t : ℕ, t < m → a + d * t ∈ A) ∧ a + d * m ∉ A

theorem Run.unique {A : List ℤ} {a d : ℤ} {m m' : ℕ} (h : Run A a d m) (h' : Run A a d m') : m = m' := by
  rcases lt_trichotomy m m' with hlt | h1 | hlt
  · exact absurd (h'.1 m hlt) h.2
  · exact h1
  · exact absurd (h.1 m' hlt) h'.2

/-- The table for the second indices from `j0` on, for `j0` itself for the first indices from `i0` on. -/
structure TInv (A : List ℤ) (j0 i0 : ℕ) (L : Dict (ℕ × ℕ) ℕ) (longest : ℕ) : Prop where
  wf : Dict.WF L
  keys : ∀ i j, (i, j) ∈ Dict.keys L ↔ i < j ∧ j + 2 ≤ A.length ∧ (j0 < j ∨ (j = j0 ∧ i0 ≤ i))
  val : ∀ i j m, Dict.get? L (i, j) = some m → Run A (at' A i) (at' A j - at' A i) m ∧ m ≤ longest
  max : longest = 2 ∨ ∃ i j, Dict.get? L (i, j) = some longest
  two : 2 ≤ longest

theorem TInv.set {A : List ℤ} {j i : ℕ} {L : Dict (ℕ × ℕ) ℕ} {longest : ℕ} (h : TInv A j (i + 1) L longest) (hi : i < j)
    (hj : j + 2 ≤ A.length) {m : ℕ} (hm : Run A (at' A i) (at' A j - at' A i) m) (hle : 2 ≤ m) :
    TInv A j i (Dict.set L (i, j) m) (Max.max longest m) := by
  refine ⟨h.wf.set _ _, fun a b => ?_, fun a b n hn => ?_, ?_, h.two.trans (le_max_left _ _)⟩
  · rw [Dict.mem_keys_set, h.keys, Prod.mk.injEq]
    omega
  · rw [Dict.get?_set] at hn
    split_ifs at hn with e
    · injection hn with hn
      rw [Prod.mk.injEq] at e
      rw [← e.1, ← e.2, ← hn]
      exact ⟨hm, le_max_right _ _⟩
    · obtain ⟨k1, k2⟩ := h.val a b n hn
      exact ⟨k1, k2.trans (le_max_left _ _)⟩
  · have hnew : Dict.get? L (i, j) = none := by
      rw [Dict.get?_eq_none, h.keys]; omega
    rcases le_total longest m with hc | hc
    · right
      refine ⟨i, j, ?_⟩
      rw [Dict.get?_set, if_pos rfl, max_eq_right hc]
    · rw [max_eq_left hc]
      rcases h.max with h1 | ⟨a, b, h1⟩
      · exact Or.inl h1
      · refine Or.inr ⟨a, b, ?_⟩
        rw [Dict.get?_set, if_neg]
        · exact h1
        · intro e; rw [← e, hnew] at h1; simp at h1

/-- If twice the middle minus the first is no later member, the progression has two members. -/
theorem run_two {A : List ℤ} (hA : A.Pairwise (· < ·)) {i j : ℕ} (hij : i < j) (hj : j < A.length)
    (h : ∀ k, j < k → k < A.length → at' A i + at' A k ≠ 2 * at' A j) : Run A (at' A i) (at' A j - at' A i) 2 := by
  constructor
  · intro t ht
    have : t = 0 ∨ t = 1 := by omega
    rcases this with rfl | rfl
    · simpa using at_mem (show i < A.length by omega)
    · simpa using at_mem hj
  · intro hm
    obtain ⟨k, hk, e⟩ := mem_at hm
    have h1 := at_lt hA hij hj
    have h2 : j < k := by
      by_contra hc
      have := at_mono (hA.imp le_of_lt) (not_lt.1 hc) hj
      push_cast at e
      linarith
    refine h k h2 hk ?_
    push_cast at e
    linarith

theorem run_succ {A : List ℤ} {a d : ℤ} (ha : a ∈ A) {m : ℕ} (h : Run A (a + d) d m) : Run A a d (m + 1) := by
  constructor
  · intro t ht
    cases t with
    | zero => simpa using ha
    | succ t =>
      have := h.1 t (by omega)
      push_cast
      rw [show a + d * ((t : ℤ) + 1) = a + d + d * t by ring]
      exact this
  · intro hm
    apply h.2
    push_cast at hm
    rw [show a + d + d * (m : ℤ) = a + d * ((m : ℤ) + 1) by ring]
    exact hm

theorem fill_spec {A : List ℤ} (hA : A.Pairwise (· < ·)) {j : ℕ} (hj : j + 2 ≤ A.length) (i1 : ℕ) (L : Dict (ℕ × ℕ) ℕ) (longest : ℕ)
    (hi : i1 ≤ j) (hinv : ∀ i', i' < i1 → ∀ k', j < k' → k' < A.length → at' A i' + at' A k' ≠ 2 * at' A j)
    (h : TInv A j i1 L longest) : TInv A j 0 (fill j i1 L) longest := by
  induction i1 generalizing L with
  | zero => exact h
  | succ i ih =>
    rw [fill]
    refine ih _ (by omega) (fun i' hi' => hinv i' (by omega)) ?_
    have := h.set (by omega) hj (run_two hA (by omega) (by omega) (hinv i (by omega))) (le_refl 2)
    rwa [max_eq_left h.two] at this

theorem scan_spec {A : List ℤ} (hA : A.Pairwise (· < ·)) {j : ℕ} (hj : j + 2 ≤ A.length) (i1 k : ℕ) (L : Dict (ℕ × ℕ) ℕ) (longest : ℕ)
    (hi : i1 ≤ j) (hk : j < k) (hinv : ∀ i', i' < i1 → ∀ k', j < k' → k' < k → at' A i' + at' A k' < 2 * at' A j)
    (h : TInv A j i1 L longest) : TInv A j 0 (scan A j i1 k L longest).1 (scan A j i1 k L longest).2 := by
  have hA' : A.Pairwise (· ≤ ·) := hA.imp le_of_lt
  induction i1, k, L, longest using scan.induct A j with
  | case1 k L longest => rw [scan]; exact h
  | case2 k L longest i h1 h2 ih =>
    rw [scan, if_pos h1, if_pos h2]
    refine ih hi (by omega) (fun i' hi' k' hk' hlt => ?_) h
    rcases Nat.lt_succ_iff_lt_or_eq.1 hlt with h' | rfl
    · exact hinv i' hi' k' hk' h'
    · have := at_mono hA' (show i' ≤ i by omega) (by omega)
      linarith
  | case3 k L longest i h1 h2 h3 ih =>
    rw [scan, if_pos h1, if_neg h2, if_pos h3]
    refine ih (by omega) hk (fun i' hi' => hinv i' (by omega)) ?_
    have := h.set (by omega) hj (run_two hA (by omega) (by omega) (fun k' hk' hlt => by
      by_cases hc : k' < k
      · exact (hinv i (by omega) k' hk' hc).ne
      · have := at_mono hA' (not_lt.1 hc) hlt
        exact ne_of_gt (by linarith))) (le_refl 2)
    rwa [max_eq_left h.two] at this
  | case4 k L longest i h1 h2 h3 ih =>
    rw [scan, if_pos h1, if_neg h2, if_neg h3]
    have e : at' A i + at' A k = 2 * at' A j := by linarith
    have hkl : k < A.length := by omega
    refine ih (by omega) (by omega) (fun i' hi' k' hk' hlt => ?_) ?_
    · rcases Nat.lt_succ_iff_lt_or_eq.1 hlt with h' | rfl
      · exact hinv i' (by omega) k' hk' h'
      · have := at_lt hA hi' (by omega)
        linarith
    · have hrun : Run A (at' A j) (at' A k - at' A j) ((Dict.get? L (j, k)).getD 2) ∧ 1 ≤ (Dict.get? L (j, k)).getD 2 := by
        cases hg : Dict.get? L (j, k) with
        | some m =>
          obtain ⟨hr, -⟩ := h.val j k m hg
          refine ⟨hr, ?_⟩
          rcases Nat.eq_zero_or_pos m with rfl | hp
          · exact absurd (by simpa using at_mem (show j < A.length by omega)) hr.2
          · exact hp
        | none =>
          refine ⟨run_two hA hk hkl (fun k' hk' hlt => ?_), by simp⟩
          rw [Dict.get?_eq_none, h.keys] at hg
          omega
      refine h.set (by omega) hj ?_ (Nat.succ_le_succ hrun.2)
      refine run_succ (at_mem (by omega)) ?_
      rw [show at' A i + (at' A j - at' A i) = at' A j by ring, show at' A j - at' A i = at' A k - at' A j by linarith]
      exact hrun.1
  | case5 k L longest i h1 =>
    rw [scan, if_neg h1]
    exact fill_spec hA hj (i + 1) L longest hi (fun i' hi' k' hk' hlt => (hinv i' hi' k' hk' (by omega)).ne) h

theorem table_spec {A : List ℤ} (hA : A.Pairwise (· < ·)) (m : ℕ) (hm : m + 2 ≤ A.length) (L : Dict (ℕ × ℕ) ℕ) (longest : ℕ)
    (h : TInv A m m L longest) :
    TInv A 0 0 (table A (List.range' 1 m).reverse L longest).1 (table A (List.range' 1 m).reverse L longest).2 := by
  induction m generalizing L longest with
  | zero => exact h
  | succ m ih =>
    rw [List.range'_1_concat, List.reverse_append, List.reverse_singleton, List.singleton_append, table, Nat.add_comm 1 m]
    refine ih (by omega) _ _ ?_
    have := scan_spec hA hm (m + 1) (m + 1 + 1) L longest (le_refl _) (by omega) (fun _ _ _ _ _ => by omega) h
    refine ⟨this.wf, fun i j => ?_, this.val, this.max, this.two⟩
    rw [this.keys]
    omega

/-- `t` is an increasing arithmetic progression of members of the list. -/
def IsProgression (A : List ℤ) (t : List ℤ) : Prop :=
  (∃ a d : ℤ, 0 < d ∧ t = (List.range t.length).map (fun k : ℕ => a + d * (k : ℤ))) ∧ ∀ x ∈ t, x ∈ A

/-- C89: on a strictly increasing list with a progression of at least three members `longest_ap` returns exactly the
longest progressions, each once, in lexicographic order. -/
theorem C89_longest_partial (A : List ℤ) (hA : A.Pairwise (· < ·)) (h3 : ∃ t, IsProgression A t ∧ 3 ≤ t.length) :
    (longestAp A).Pairwise (· < ·) ∧
    ∀ t, t ∈ longestAp A ↔ IsProgression A t ∧ ∀ t', IsProgression A t' → t'.length ≤ t.length := by
  -- a progression of at least two members starts at two indices of the list
  have start : ∀ t, IsProgression A t → 3 ≤ t.length → ∃ i j, i < j ∧ j + 2 ≤ A.length ∧
      t = (List.range t.length).map (fun k : ℕ => at' A i + (at' A j - at' A i) * (k : ℤ)) ∧
      ∀ m, Run A (at' A i) (at' A j - at' A i) m → t.length ≤ m := by
    rintro t ⟨⟨a, d, hd, e⟩, hm⟩ h3
    have hmem : ∀ k : ℕ, k < t.length → a + d * (k : ℤ) ∈ A := fun k hk => hm _ (by
      rw [e]; exact List.mem_map.2 ⟨k, List.mem_range.2 (by simpa using hk), rfl⟩)
    obtain ⟨i, hi, ei⟩ := mem_at (hmem 0 (by omega))
    obtain ⟨j, hj, ej⟩ := mem_at (hmem 1 (by omega))
    obtain ⟨k, hk, ek⟩ := mem_at (hmem 2 (by omega))
    have mono : ∀ {p q : ℕ}, p < A.length → at' A p < at' A q → p < q := by
      intro p q hp hlt
      by_contra hc
      have := at_mono (hA.imp le_of_lt) (not_lt.1 hc) hp
      linarith
    push_cast at ei ej ek
    have hij : i < j := mono hi (by linarith)
    have hjk : j < k := mono hj (by linarith)
    have ea : at' A i = a := by linarith
    have ed : at' A j - at' A i = d := by linarith
    refine ⟨i, j, hij, by omega, by rw [ed, ea]; exact e, fun m hr => ?_⟩
    rw [ed, ea] at hr
    by_contra hc
    exact hr.2 (hmem m (by omega))
  obtain ⟨t0, h0, hl0⟩ := h3
  obtain ⟨i0, j0, hij0, hj0, -, -⟩ := start t0 h0 hl0
  have hT := table_spec hA (A.length - 2) (by omega) [] 2 (by
    refine ⟨List.nodup_nil, fun i j => ?_, fun i j m h => by simp [Dict.get?] at h, Or.inl rfl, le_refl _⟩
    simp only [Dict.keys, List.map_nil, List.not_mem_nil, false_iff]
    omega)
  rw [longestAp]
  generalize table A (List.range' 1 (A.length - 2)).reverse [] 2 = r at hT ⊢
  obtain ⟨L, longest⟩ := r
  dsimp only at hT ⊢
  -- all lengths are at most `longest`
  have hle : ∀ t, IsProgression A t → t.length ≤ longest := by
    intro t ht
    by_cases hc : 3 ≤ t.length
    · obtain ⟨i, j, hij, hj, -, hr⟩ := start t ht hc
      obtain ⟨m, hm⟩ := Dict.get?_isSome.2 ((hT.keys i j).2 ⟨hij, hj, by omega⟩)
      obtain ⟨k1, k2⟩ := hT.val i j m hm
      exact (hr m k1).trans k2
    · have := hT.two
      omega
  have h3' : 3 ≤ longest := hl0.trans (hle t0 h0)
  have hprog : ∀ i j, Dict.get? L (i, j) = some longest → IsProgression A (prog A i j longest) := by
    intro i j hg
    obtain ⟨hk, hj, -⟩ := (hT.keys i j).1 (Dict.get?_isSome.1 ⟨_, hg⟩)
    refine ⟨⟨at' A i, at' A j - at' A i, sub_pos.2 (at_lt hA hk (by omega)), by simp [prog]⟩, fun x hx => ?_⟩
    rw [prog, List.mem_map] at hx
    obtain ⟨k, hk', rfl⟩ := hx
    exact (hT.val i j longest hg).1.1 k (List.mem_range.1 hk')
  have hlen : ∀ i j, (prog A i j longest).length = longest := fun i j => by simp [prog]
  have hmem : ∀ t, t ∈ L.filterMap (fun e => if e.2 = longest then some (prog A e.1.1 e.1.2 longest) else none) ↔
      ∃ i j, Dict.get? L (i, j) = some longest ∧ t = prog A i j longest := by
    intro t
    rw [List.mem_filterMap]
    constructor
    · rintro ⟨⟨⟨i, j⟩, m⟩, hm, he⟩
      split_ifs at he with hc
      dsimp only at hc he
      refine ⟨i, j, ?_, (Option.some.inj he).symm⟩
      rw [← hc]; exact Dict.get?_of_mem hT.wf hm
    · rintro ⟨i, j, hg, rfl⟩
      exact ⟨((i, j), longest), Dict.mem_of_get? hg, by rw [if_pos rfl]⟩
  have hmax : ∃ i j, Dict.get? L (i, j) = some longest := by
    rcases hT.max with h | h
    · omega
    · exact h
  obtain ⟨i1, j1, hg1⟩ := hmax
  have hnd : (L.filterMap (fun e => if e.2 = longest then some (prog A e.1.1 e.1.2 longest) else none)).Nodup := by
    have hp : L.Pairwise (fun a b => a.1 ≠ b.1) := List.pairwise_map.1 hT.wf
    refine List.pairwise_filterMap.2 (List.Pairwise.imp_of_mem (fun {a b} ha hb hab x hx y hy exy => hab ?_) hp)
    split_ifs at hx hy with hc1 hc2
    obtain ⟨⟨i, j⟩, m⟩ := a
    obtain ⟨⟨i', j'⟩, m'⟩ := b
    simp only [Option.some.injEq] at hx hy
    obtain ⟨k1, k1', -⟩ := (hT.keys i j).1 (List.mem_map.2 ⟨_, ha, rfl⟩)
    obtain ⟨k2, k2', -⟩ := (hT.keys i' j').1 (List.mem_map.2 ⟨_, hb, rfl⟩)
    have e : prog A i j longest = prog A i' j' longest := by rw [hx, hy, exy]
    have he : ∀ k : ℕ, k < longest → at' A i + (at' A j - at' A i) * (k : ℤ) = at' A i' + (at' A j' - at' A i') * (k : ℤ) := by
      intro k hk
      rw [prog, prog, List.map_inj_left] at e
      exact e k (List.mem_range.2 hk)
    have e0 := he 0 (by omega)
    have e1 := he 1 (by omega)
    push_cast at e0 e1
    have inj : ∀ {p q : ℕ}, p < A.length → q < A.length → at' A p = at' A q → p = q := by
      intro p q hp hq h
      rcases lt_trichotomy p q with h1 | h1 | h1
      · have := at_lt hA h1 hq; omega
      · exact h1
      · have := at_lt hA h1 hp; omega
    rw [Prod.mk.injEq]
    exact ⟨inj (by omega) (by omega) (by linarith), inj (by omega) (by omega) (by linarith)⟩
  constructor
  · have hs := pairwise_pySort (le := fun a b : List ℤ => decide (a ≤ b)) (fun a b c h1 h2 => by
      simp only [decide_eq_true_eq] at h1 h2 ⊢; exact le_trans h1 h2) (fun a b => by
      simp only [Bool.or_eq_true, decide_eq_true_eq]; exact le_total a b)
      (L.filterMap (fun e => if e.2 = longest then some (prog A e.1.1 e.1.2 longest) else none))
    have hn := (pySort_perm _ (fun a b : List ℤ => decide (a ≤ b))).nodup_iff.2 hnd
    refine (hs.and hn).imp (fun {a b} h => ?_)
    simp only [decide_eq_true_eq] at h
    exact lt_of_le_of_ne h.1 h.2
  · intro t
    rw [mem_pySort, hmem]
    constructor
    · rintro ⟨i, j, hg, rfl⟩
      exact ⟨hprog i j hg, fun t' ht' => by rw [hlen]; exact hle t' ht'⟩
    · rintro ⟨ht, hmx⟩
      have e : t.length = longest := le_antisymm (hle t ht) (by
        have := hmx _ (hprog i1 j1 hg1)
        rwa [hlen] at this)
      obtain ⟨i, j, hij, hj, e1, hr⟩ := start t ht (by omega)
      obtain ⟨m, hm⟩ := Dict.get?_isSome.2 ((hT.keys i j).2 ⟨hij, hj, by omega⟩)
      obtain ⟨k1, k2⟩ := hT.val i j m hm
      have := hr m k1
      refine ⟨i, j, ?_, ?_⟩
      · rw [hm]; congr 1; omega
      · rw [e1, e, prog]

/-- C89, the missing part: without a progression of three members the list of pairs is not complete; (1, 4) and (2, 4)
are missing here. -/
theorem C89_pairs_violation : longestAp [1, 2, 4] = [[1, 2]] ∧ longestAp [1, 2] = [] := by decide +kernel

example : longestAp [2, 3, 5, 7, 11] = [[3, 5, 7], [3, 7, 11]] := by decide +kernel
example : longestAp [2, 3, 5, 7, 11, 17, 23] = [[5, 11, 17, 23]] := by decide +kernel

end Rosemary.Props
