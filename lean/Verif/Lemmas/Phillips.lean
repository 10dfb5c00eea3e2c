import Verif.Lemmas.Permutations

/-!
# The steps of `phillips`
-/

namespace Rosemary.Generation

open Rosemary.Gen Rosemary.Lex

variable {α : Type} [LinearOrder α] [Inhabited α]

theorem phillipsFind_spec (s : List α) (k : Nat) :
    phillipsFind s (get s k) k = match findDesc s k with
      | none => if get s (s.length - 1) ≥ get s 0 then .error .indexError else .ok none
      | some j => .ok (some (j, get s (j + 1), get s j)) := by
  induction k with
  | zero => rw [phillipsFind, findDesc]
  | succ k ih =>
    rw [phillipsFind, findDesc]
    by_cases h : get s k ≥ get s (k + 1)
    · rw [if_pos h, if_pos h, ih]
    · rw [if_neg h, if_neg h]

theorem revLoop_step {l : List α} {a b : Nat} (h : a < b) :
    revLoop l a b = revLoop (swap l a b) (a + 1) (b - 1) := by
  rw [revLoop, if_pos h]

/-- `phillips` steps like `knuth_algorithm_l` unless all entries are equal. -/
theorem phillipsStep_eq {s : List α} (hlen : 3 ≤ s.length) (hne : ∃ x ∈ s, ∃ y ∈ s, x ≠ y) :
    phillipsStep s = permStep s := by
  have hdn : findDesc s (s.length - 1)
      = if get s (s.length - 1 - 1) ≥ get s (s.length - 1) then findDesc s (s.length - 1 - 1)
        else some (s.length - 1 - 1) := by
    obtain ⟨k, hk⟩ : ∃ k, s.length - 1 = k + 1 := ⟨s.length - 2, by omega⟩
    rw [hk, findDesc]; rfl
  have hdn2 : findDesc s (s.length - 1 - 1)
      = if get s (s.length - 1 - 2) ≥ get s (s.length - 1 - 1) then findDesc s (s.length - 1 - 2)
        else some (s.length - 1 - 2) := by
    obtain ⟨k, hk⟩ : ∃ k, s.length - 1 = k + 2 := ⟨s.length - 3, by omega⟩
    rw [hk, show k + 2 - 1 = k + 1 from rfl, findDesc]; rfl
  have hG : ∀ x, findGt s x (s.length - 1)
      = if x ≥ get s (s.length - 1) then findGt s x (s.length - 1 - 1) else s.length - 1 := by
    intro x
    obtain ⟨k, hk⟩ : ∃ k, s.length - 1 = k + 1 := ⟨s.length - 2, by omega⟩
    rw [hk, findGt]; rfl
  have hG2 : ∀ x, findGt s x (s.length - 1 - 1)
      = if x ≥ get s (s.length - 1 - 1) then findGt s x (s.length - 1 - 2) else s.length - 1 - 1 := by
    intro x
    obtain ⟨k, hk⟩ : ∃ k, s.length - 1 = k + 2 := ⟨s.length - 3, by omega⟩
    rw [hk, show k + 2 - 1 = k + 1 from rfl, findGt]; rfl
  rw [phillipsStep, permStep, hdn, hdn2]
  dsimp only
  by_cases h1 : get s (s.length - 1 - 1) < get s (s.length - 1)
  · rw [if_pos h1, if_neg (not_le.2 h1)]
    dsimp only
    rw [increase]
    rw [hG, if_neg (not_le.2 h1), revLoop, if_neg (by omega)]
    rfl
  rw [if_neg h1, if_pos (not_lt.1 h1)]
  by_cases h2 : get s (s.length - 1 - 2) < get s (s.length - 1 - 1)
  · rw [if_pos h2, if_neg (not_le.2 h2)]
    dsimp only
    rw [increase]
    rw [hG, revLoop_step (by omega), revLoop, if_neg (show ¬ (s.length - 1 - 2 + 1 + 1 < s.length - 1 - 1) by omega)]
    by_cases h3 : get s (s.length - 1 - 2) < get s (s.length - 1)
    · rw [if_pos h3, if_neg (not_le.2 h3)]
      congr 1
      apply ext_get (by simp)
      intro k hk
      rw [get_set (by simp; omega), get_set (by simp; omega), get_set (by omega),
        get_swap (by simp; omega) (by simp; omega), get_swap (by omega) (by omega),
        get_swap (by omega) (by omega), get_swap (by omega) (by omega)]
      have hk' : k < s.length := by simpa using hk
      split_ifs <;> first | rfl | omega | (congr 1; omega)
    · rw [if_neg h3, if_pos (not_lt.1 h3), hG2, if_neg (not_le.2 h2)]
      congr 1
      apply ext_get (by simp)
      intro k hk
      rw [get_set (by simp; omega), get_set (by simp; omega), get_set (by omega),
        get_swap (by simp; omega) (by simp; omega), get_swap (by omega) (by omega),
        get_swap (by omega) (by omega), get_swap (by omega) (by omega)]
      have hk' : k < s.length := by simpa using hk
      split_ifs <;> first | rfl | omega | (congr 1; omega)
  rw [if_neg h2, if_pos (not_lt.1 h2), phillipsFind_spec]
  have hspec := findDesc_spec s (s.length - 1 - 2)
  cases hf : findDesc s (s.length - 1 - 2) with
  | none =>
    rw [hf] at hspec
    dsimp only at hspec ⊢
    rw [if_neg]
    · intro hge
      have hm := mono_of_step (get s) (a := 0) (b := s.length - 1) (fun i _ hi => by
        by_cases c1 : i = s.length - 1 - 1
        · rw [c1, show s.length - 1 - 1 + 1 = s.length - 1 by omega]
          exact not_lt.1 h1
        · by_cases c2 : i = s.length - 1 - 2
          · rw [c2, show s.length - 1 - 2 + 1 = s.length - 1 - 1 by omega]
            exact not_lt.1 h2
          · exact hspec i (by omega))
      have hall : ∀ i, i < s.length → get s i = get s 0 := fun i hi =>
        le_antisymm (hm 0 i (by omega) (by omega) (by omega))
          (hge.trans (hm i (s.length - 1) (by omega) (by omega) (by omega)))
      obtain ⟨x, hx, y, hy, hxy⟩ := hne
      obtain ⟨i, hi, rfl⟩ := List.mem_iff_getElem.1 hx
      obtain ⟨k, hk, rfl⟩ := List.mem_iff_getElem.1 hy
      rw [← get_eq, ← get_eq, hall i hi, hall k hk] at hxy
      exact hxy rfl
  | some j =>
    rw [hf] at hspec
    dsimp only at hspec ⊢
    obtain ⟨j1, j2, j3⟩ := hspec
    rw [increase]
    rw [hG, revLoop_step (show j + 1 < s.length - 1 by omega)]
    by_cases h3 : get s j < get s (s.length - 1)
    · rw [if_pos h3, if_neg (not_le.2 h3)]
      congr 2
      apply ext_get (by simp)
      intro k hk
      rw [get_set (by simp; omega), get_set (by simp; omega), get_set (by omega),
        get_swap (by simp; omega) (by simp; omega), get_swap (by omega) (by omega),
        get_swap (by omega) (by omega), get_swap (by omega) (by omega)]
      have hk' : k < s.length := by simpa using hk
      split_ifs <;> first | rfl | omega | (congr 1; omega)
    · rw [if_neg h3, if_pos (not_lt.1 h3)]
      obtain ⟨l1, l2, -, -⟩ := findGt_spec s (get s j) j2 (s.length - 1 - 1) (by omega)
      generalize findGt s (get s j) (s.length - 1 - 1) = m at *
      congr 2
      rw [show (s.set j (get s m)).set m (get s j) = swap s j m from rfl]
      have hz : get s (s.length - 1) = get (swap s j m) (s.length - 1) := by
        rw [get_swap (by omega) (by omega), if_neg (by omega), if_neg (by omega)]
      rw [hz]
      have hwl : (swap s j m).length = s.length := by simp
      generalize swap s j m = w at *
      apply ext_get (by simp)
      intro k hk
      rw [get_set (by first | omega | (simp; omega)), get_set (by first | omega | (simp; omega)), get_swap (by first | omega | (simp; omega)) (by first | omega | (simp; omega))]
      split_ifs <;> first | rfl | omega | (congr 1; omega)

/-- On a list of equal entries `phillips` runs off the list. -/
theorem phillipsStep_const {s : List α} (hlen : 3 ≤ s.length) (heq : ∀ x ∈ s, ∀ y ∈ s, x = y) :
    phillipsStep s = .raise .indexError := by
  have hg : ∀ i k, i < s.length → k < s.length → get s i = get s k := by
    intro i k hi hk
    rw [get_eq hi, get_eq hk]
    exact heq _ (List.getElem_mem _) _ (List.getElem_mem _)
  rw [phillipsStep]
  dsimp only
  rw [if_neg (by rw [hg _ (s.length - 1) (by omega) (by omega)]; exact lt_irrefl _),
    if_neg (by rw [hg _ (s.length - 1 - 1) (by omega) (by omega)]; exact lt_irrefl _), phillipsFind_spec]
  have hf : findDesc s (s.length - 1 - 2) = none := by
    have := findDesc_spec s (s.length - 1 - 2)
    cases hf : findDesc s (s.length - 1 - 2) with
    | none => rfl
    | some j =>
      rw [hf] at this
      dsimp only at this
      have h := this.2.1
      rw [hg j (j + 1) (by omega) (by omega)] at h
      exact absurd h (lt_irrefl _)
  rw [hf]
  dsimp only
  rw [if_pos (ge_of_eq (hg _ _ (by omega) (by omega)))]

end Rosemary.Generation
