import Verif.Lemmas.ErdosGallai
import Mathlib.Tactic.IntervalCases

/-!
# Degree sequences (C74, C90)
-/

namespace Rosemary.Props

open Rosemary.DegreeSequences Rosemary.Havel
open BigOperators

/-- The list is the list of degrees (numbers of neighbours) of the vertices of some simple graph. -/
def IsDegreeSequence (S : List ℤ) : Prop :=
  ∃ G : SimpleGraph (Fin S.length), ∀ i, ((G.neighborSet i).ncard : ℤ) = S.get i

theorem ncard_eq_deg {n : ℕ} (G : SimpleGraph (Fin n)) (i : Fin n) : (G.neighborSet i).ncard = deg G i := by
  classical
  rw [deg, Set.ncard_eq_toFinset_card']
  congr 1
  ext w
  simp

theorem isDegreeSequence_iff (S : List ℤ) : IsDegreeSequence S ↔ Graphic S := by
  simp only [IsDegreeSequence, Graphic, ncard_eq_deg]

/-- C74: `is_graphic` never raises, and returns True exactly for degree sequences of simple graphs. -/
theorem C74_is_graphic (S : List ℤ) : ∃ b, isGraphic S = .ok b ∧ (b = true ↔ IsDegreeSequence S) := by
  rw [isDegreeSequence_iff, isGraphic]
  by_cases h : S.any (fun d => decide ((S.length : ℤ) ≤ d)) = true
  · refine ⟨false, by rw [if_pos h], by simp, ?_⟩
    rintro ⟨G, hG⟩
    rw [List.any_eq_true] at h
    obtain ⟨x, hx, hle⟩ := h
    obtain ⟨i, hi, rfl⟩ := List.getElem_of_mem hx
    have := hG ⟨i, hi⟩
    simp only [decide_eq_true_eq, List.get_eq_getElem] at hle this
    classical
    have hlt : deg G ⟨i, hi⟩ < S.length := by
      rw [deg]
      calc _ < (Finset.univ : Finset (Fin S.length)).card := by
            refine Finset.card_lt_card ⟨Finset.filter_subset _ _, fun hs => ?_⟩
            have := hs (Finset.mem_univ (⟨i, hi⟩ : Fin S.length))
            exact G.loopless.irrefl _ (Finset.mem_filter.1 this).2
        _ = S.length := by simp
    omega
  · rw [if_neg h]
    refine graphicLoop_spec _ S (le_refl _) (fun x hx => ?_)
    by_contra hc
    exact h (List.any_eq_true.2 ⟨x, hx, by simpa using hc⟩)

/-- The loop checks all the inequalities. -/
theorem erdosGallaiLoop_iff (k : ℕ) (s : ℤ) (T : List ℤ) :
    erdosGallaiLoop k s T = true ↔ ∀ r (h : r < T.length), s + (T.take (r + 1)).sum ≤
      ((k + r : ℕ) : ℤ) * (((k + r : ℕ) : ℤ) + 1) + ((T.drop (r + 1)).map (fun x => min (((k + r : ℕ) : ℤ) + 1) x)).sum := by
  induction T generalizing k s with
  | nil => simp [erdosGallaiLoop]
  | cons t T ih =>
    rw [erdosGallaiLoop]
    by_cases h : s + t > (k : ℤ) * ((k : ℤ) + 1) + (T.map (fun x => min ((k : ℤ) + 1) x)).sum
    · rw [if_pos h]
      simp only [Bool.false_eq_true, false_iff]
      intro hall
      have := hall 0 (by simp)
      simp only [zero_add, List.take_succ_cons, List.take_zero, List.sum_cons, List.sum_nil, add_zero, List.drop_succ_cons, List.drop_zero] at this
      exact absurd this (not_le.2 h)
    · rw [if_neg h, ih]
      constructor
      · intro hall r hr
        cases r with
        | zero =>
          simp only [zero_add, List.take_succ_cons, List.take_zero, List.sum_cons, List.sum_nil, add_zero, List.drop_succ_cons, List.drop_zero]
          exact not_lt.1 h
        | succ r =>
          have := hall r (by simpa using hr)
          simp only [List.take_succ_cons, List.sum_cons, List.drop_succ_cons]
          rw [show k + (r + 1) = k + 1 + r by omega, ← add_assoc]
          exact this
      · intro hall r hr
        have := hall (r + 1) (by simpa using hr)
        simp only [List.take_succ_cons, List.sum_cons, List.drop_succ_cons] at this
        rw [show k + (r + 1) = k + 1 + r by omega, ← add_assoc] at this
        exact this

theorem sum_take {l : List ℤ} (g : ℤ → ℤ) (r : ℕ) :
    ((l.take (r + 1)).map g).sum = ∑ i ∈ Finset.univ.filter (fun w : Fin l.length => w.val ≤ r), g (l.get i) := by
  have : (l.take (r + 1)).map g = (List.ofFn (fun i => g (l.get i))).take (r + 1) := by
    rw [List.map_take]
    congr 1
    conv_lhs => rw [← List.ofFn_get l, List.map_ofFn]
    rfl
  rw [this, List.sum_take_ofFn]
  refine Finset.sum_congr ?_ (fun _ _ => rfl)
  ext i
  simp [Nat.lt_succ_iff]

theorem sum_drop {l : List ℤ} (g : ℤ → ℤ) (r : ℕ) :
    ((l.drop (r + 1)).map g).sum = ∑ i ∈ Finset.univ.filter (fun w : Fin l.length => ¬ w.val ≤ r), g (l.get i) := by
  have h1 : ((l.take (r + 1)).map g).sum + ((l.drop (r + 1)).map g).sum = (l.map g).sum := by
    rw [← List.sum_append, ← List.map_append, List.take_append_drop]
  have h2 : (l.map g).sum = ∑ i, g (l.get i) := by
    have := sum_take (l := l) g l.length
    rw [List.take_of_length_le (by omega)] at this
    rw [this]
    refine Finset.sum_congr ?_ (fun _ _ => rfl)
    ext i
    simp [i.2.le]
  rw [sum_take, h2, ← Finset.sum_filter_add_sum_filter_not Finset.univ (fun w : Fin l.length => w.val ≤ r)] at h1
  linarith

theorem sum_all {l : List ℤ} : l.sum = ∑ i, l.get i := by
  have := sum_take (l := l) id l.length
  rw [List.take_of_length_le (by omega), List.map_id] at this
  rw [this]
  refine Finset.sum_congr ?_ (fun _ _ => rfl)
  ext i
  simp [i.2.le]

theorem sorted_desc (S : List ℤ) : (pySort S (fun a b => decide (b ≤ a))).Pairwise (fun a b => b ≤ a) :=
  (pairwise_pySort (le := fun a b : ℤ => decide (b ≤ a)) (fun a b c h h' => by
    simp only [decide_eq_true_eq] at h h' ⊢; exact le_trans h' h)
    (fun a b => by simp only [Bool.or_eq_true, decide_eq_true_eq]; exact le_total b a) S).imp
    (fun {a b} h => by simpa using h)

/-- C90: the Erdős–Gallai test accepts every degree sequence. -/
theorem C90_erdos_gallai_accepts (S : List ℤ) (h : IsDegreeSequence S) : isGraphicErdosGallai S = true := by
  rw [isDegreeSequence_iff] at h
  have hp := pySort_perm S (fun a b => decide (b ≤ a))
  rw [isGraphicErdosGallai]
  have hT := h.perm hp.symm
  generalize pySort S (fun a b => decide (b ≤ a)) = T at hT ⊢
  obtain ⟨G, hG⟩ := hT
  rw [erdosGallaiLoop_iff]
  intro r hr
  have := erdos_gallai_necessary G ⟨r, hr⟩
  have h1 := sum_take (l := T) id r
  rw [List.map_id] at h1
  rw [zero_add, zero_add, h1, sum_drop]
  simp only [id, ← hG]
  exact_mod_cast this

/-- C90: for nonnegative numbers with an even sum both tests are exact. -/
theorem C90_erdos_gallai_partial (S : List ℤ) (hpos : ∀ x ∈ S, 0 ≤ x) (heven : Even S.sum) :
    isGraphicErdosGallai S = true ↔ IsDegreeSequence S := by
  refine ⟨fun h => ?_, C90_erdos_gallai_accepts S⟩
  rw [isDegreeSequence_iff]
  have hp := pySort_perm S (fun a b => decide (b ≤ a))
  have hs := sorted_desc S
  rw [isGraphicErdosGallai] at h
  refine Graphic.perm hp ?_
  have hpos' : ∀ x ∈ pySort S (fun a b => decide (b ≤ a)), 0 ≤ x := fun x hx => hpos x (hp.mem_iff.1 hx)
  rw [← hp.sum_eq] at heven
  generalize pySort S (fun a b => decide (b ≤ a)) = T at h hs hpos' heven
  rw [erdosGallaiLoop_iff] at h
  have hd : ∀ i, ((T.get i).toNat : ℤ) = T.get i := fun i => Int.toNat_of_nonneg (hpos' _ (List.get_mem T i))
  obtain ⟨G, hG⟩ := erdos_gallai_sufficient (d := fun i => (T.get i).toNat) (by
    intro i j hij
    have : T.get j ≤ T.get i := by
      rcases lt_or_eq_of_le hij with h' | h'
      · exact List.pairwise_iff_getElem.1 hs i.val j.val i.2 j.2 h'
      · rw [h']
    omega) (by
    rw [sum_all] at heven
    have e : ∑ i, T.get i = ((∑ i, (T.get i).toNat : ℕ) : ℤ) := by
      push_cast
      exact Finset.sum_congr rfl (fun i _ => (hd i).symm)
    rw [e] at heven
    exact_mod_cast heven) (by
    intro r
    have h1 := h r.val r.2
    have h2 := sum_take (l := T) id r.val
    rw [List.map_id] at h2
    rw [zero_add, zero_add, h2, sum_drop] at h1
    have e1 : ∑ i ∈ Finset.univ.filter (fun w : Fin T.length => w.val ≤ r.val), id (T.get i) =
        ((∑ i ∈ Finset.univ.filter (fun w : Fin T.length => w.val ≤ r.val), (T.get i).toNat : ℕ) : ℤ) := by
      push_cast
      exact Finset.sum_congr rfl (fun i _ => (hd i).symm)
    have e2 : ∑ i ∈ Finset.univ.filter (fun w : Fin T.length => ¬ w.val ≤ r.val), min ((r.val : ℤ) + 1) (T.get i) =
        ((∑ i ∈ Finset.univ.filter (fun w : Fin T.length => ¬ w.val ≤ r.val), min (r.val + 1) (T.get i).toNat : ℕ) : ℤ) := by
      push_cast
      exact Finset.sum_congr rfl (fun i _ => by rw [hd i])
    rw [e1, e2] at h1
    exact_mod_cast h1)
  exact ⟨G, fun i => by rw [hG, hd]⟩

/-- C90, the missing part: the Erdős–Gallai test does not look at the parity of the sum, nor at negative entries. -/
theorem C90_erdos_gallai_violation :
    (isGraphicErdosGallai [1, 1, 1] = true ∧ ¬ IsDegreeSequence [1, 1, 1]) ∧
    (isGraphicErdosGallai [-2] = true ∧ ¬ IsDegreeSequence [-2]) := by
  have key : ∀ S, isGraphic S = .ok false → ¬ IsDegreeSequence S := by
    intro S h hd
    obtain ⟨b, h1, h2⟩ := C74_is_graphic S
    rw [h] at h1
    injection h1 with h1
    rw [← h1] at h2
    exact absurd (h2.2 hd) (by simp)
  exact ⟨⟨by decide +kernel, key _ (by decide +kernel)⟩, by decide +kernel, key _ (by decide +kernel)⟩

example : isGraphic [4, 4, 3, 2, 2, 1] = .ok true ∧ isGraphic [5, 4, 4, 3, 1, 1] = .ok false := by decide +kernel
example : isGraphicErdosGallai [4, 4, 3, 2, 2, 1] = true ∧ isGraphicErdosGallai [5, 4, 4, 3, 1, 1] = false := by decide +kernel
/-- So there is a graph with these degrees. -/
example : IsDegreeSequence [4, 4, 3, 2, 2, 1] := by
  obtain ⟨b, h1, h2⟩ := C74_is_graphic [4, 4, 3, 2, 2, 1]
  have : b = true := by
    have h : isGraphic [4, 4, 3, 2, 2, 1] = .ok true := by decide +kernel
    rw [h] at h1
    injection h1 with h1
    exact h1.symm
  exact h2.1 this

end Rosemary.Props
