import Verif.Props.Enumeration
import Mathlib.Combinatorics.Enumerative.Stirling

/-!
# C56, all values of `stirling_number2`

Line 64 of enumeration.py reads `S[i - j, j - 1]` where the recurrence has `S[i - 1, j - 1]`.
-/

namespace Rosemary.Props

open Rosemary Rosemary.Enumeration

private theorem init_foldl_zero (l : List Nat) (S : SDict) (a b : Nat) :
    l.foldl (fun S i => S.put i 0 0) S a b = if b = 0 ∧ a ∈ l then some 0 else S a b := by
  induction l generalizing S with
  | nil => simp
  | cons i l ih =>
    rw [List.foldl_cons, ih, SDict.put]
    by_cases h : b = 0 ∧ a ∈ l
    · rw [if_pos h, if_pos ⟨h.1, List.mem_cons_of_mem _ h.2⟩]
    · rw [if_neg h]
      by_cases h' : a = i ∧ b = 0
      · rw [if_pos h', if_pos ⟨h'.2, by rw [h'.1]; exact List.mem_cons_self⟩]
      · rw [if_neg h', if_neg]
        rintro ⟨h1, h2⟩
        rcases List.mem_cons.1 h2 with h2 | h2
        · exact h' ⟨h2, h1⟩
        · exact h ⟨h1, h2⟩

private theorem init_foldl_diag (l : List Nat) (S : SDict) (a b : Nat) :
    l.foldl (fun S i => S.put i (i + 1) 0) S a b = if b = a + 1 ∧ a ∈ l then some 0 else S a b := by
  induction l generalizing S with
  | nil => simp
  | cons i l ih =>
    rw [List.foldl_cons, ih, SDict.put]
    by_cases h : b = a + 1 ∧ a ∈ l
    · rw [if_pos h, if_pos ⟨h.1, List.mem_cons_of_mem _ h.2⟩]
    · rw [if_neg h]
      by_cases h' : a = i ∧ b = i + 1
      · rw [if_pos h', if_pos ⟨by rw [h'.2, h'.1], by rw [h'.1]; exact List.mem_cons_self⟩]
      · rw [if_neg h', if_neg]
        rintro ⟨h1, h2⟩
        rcases List.mem_cons.1 h2 with h2 | h2
        · exact h' ⟨h2, by rw [h1, h2]⟩
        · exact h ⟨h1, h2⟩

private theorem init_val (m a b : Nat) : stirlingInit m a b =
    if a ≤ m ∧ b = a + 1 then some 0 else if a = 0 ∧ b = 0 then some 1 else if a ≤ m ∧ b = 0 then some 0 else none := by
  rw [stirlingInit]
  rw [init_foldl_diag, init_foldl_zero, SDict.put]
  simp only [List.mem_range, List.mem_range'_1]
  split_ifs <;> first | rfl | omega

/-- Only KeyError is raised. -/
private theorem row_error {i : Nat} (js : List Nat) (S : SDict) {e : PyErr} (h : stirlingRow i js S = .error e) :
    e = .keyError := by
  induction js generalizing S with
  | nil => simp [stirlingRow] at h
  | cons j js ih =>
    rw [stirlingRow] at h
    split at h
    · exact ih _ h
    · cases h; rfl

private theorem row_zero {i : Nat} (hi : 1 ≤ i) (js : List Nat) (S S' : SDict) (h : stirlingRow i js S = .ok S') :
    (∀ b, S' 0 b = S 0 b) ∧ (i ∈ js → S 0 (i - 1) ≠ none) := by
  induction js generalizing S with
  | nil => cases h; simp
  | cons j js ih =>
    rw [stirlingRow] at h
    split at h
    · rename_i a b ha hb
      obtain ⟨h1, h2⟩ := ih _ h
      have hput : ∀ c, (S.put i j (j * a + b)) 0 c = S 0 c := fun c => by
        rw [SDict.put, if_neg (by omega)]
      refine ⟨fun c => (h1 c).trans (hput c), fun hm => ?_⟩
      rcases List.mem_cons.1 hm with rfl | hm
      · rw [Nat.sub_self] at hb
        rw [hb]; simp
      · rw [← hput]; exact h2 hm
    · cases h

private theorem loop_large (n : Nat) (hn : 3 ≤ n) (is : List Nat) (his : ∀ i ∈ is, 1 ≤ i) (h3 : 3 ∈ is) (S : SDict)
    (hS : S 0 2 = none) : stirlingLoop n is S = .error .keyError := by
  induction is generalizing S with
  | nil => simp at h3
  | cons i is ih =>
    rw [stirlingLoop]
    cases h : stirlingRow i (List.range' 1 (min i n)) S with
    | error e => rw [row_error _ _ h]
    | ok S' =>
      obtain ⟨h1, h2⟩ := row_zero (his i (by simp)) _ _ _ h
      dsimp only
      rcases List.mem_cons.1 h3 with rfl | h3
      · exact absurd hS (h2 (by rw [List.mem_range'_1]; omega))
      · exact ih (fun i hi => his i (by simp [hi])) h3 S' ((h1 2).trans hS)

private theorem loop_zero (is : List Nat) (S : SDict) : stirlingLoop 0 is S = .ok S := by
  induction is with
  | nil => rfl
  | cons i is ih => rw [stirlingLoop, Nat.min_zero]; exact ih

private theorem loop_one (k i : Nat) (S : SDict) (h00 : S 0 0 = some 1)
    (h0 : ∀ a, 1 ≤ a → a ≤ i + k → S a 0 = some 0) (h1 : S i 1 = some (if i = 0 then 0 else 1)) :
    ∃ S', stirlingLoop 1 (List.range' (i + 1) k) S = .ok S' ∧ S' (i + k) 1 = some (if i + k = 0 then 0 else 1) := by
  induction k generalizing i S with
  | zero => exact ⟨S, rfl, h1⟩
  | succ k ih =>
    rw [List.range'_succ, stirlingLoop, Nat.min_eq_right (by omega)]
    have hrow : stirlingRow (i + 1) (List.range' 1 1) S = .ok (S.put (i + 1) 1 1) := by
      have hi0 : S i 0 = some (if i = 0 then 1 else 0) := by
        by_cases hi : i = 0
        · rw [hi, h00, if_pos rfl]
        · rw [if_neg hi, h0 i (by omega) (by omega)]
      show stirlingRow (i + 1) [1] S = _
      rw [stirlingRow, Nat.add_sub_cancel, h1, Nat.sub_self, hi0]
      dsimp only
      rw [stirlingRow]
      congr 2
      by_cases hi : i = 0 <;> simp [hi]
    rw [hrow]
    obtain ⟨S', e, e'⟩ := ih (i + 1) (S.put (i + 1) 1 1) (by rw [SDict.put, if_neg (by omega)]; exact h00)
      (fun a ha hb => by rw [SDict.put, if_neg (by omega)]; exact h0 a ha (by omega)) (by rw [SDict.put]; simp)
    refine ⟨S', e, ?_⟩
    rw [show i + (k + 1) = i + 1 + k by omega]
    exact e'

private theorem loop_two (k i : Nat) (hi : 1 ≤ i) (S : SDict)
    (h0 : ∀ a, 1 ≤ a → a ≤ i + k → S a 0 = some 0) (h1 : ∀ a, a ≤ i → S a 1 = some (if a = 0 then 0 else 1))
    (h2 : S i 2 = some (2 ^ (i - 2) - 1)) :
    ∃ S', stirlingLoop 2 (List.range' (i + 1) k) S = .ok S' ∧ S' (i + k) 2 = some (2 ^ (i + k - 2) - 1) := by
  induction k generalizing i S with
  | zero => exact ⟨S, rfl, h2⟩
  | succ k ih =>
    rw [List.range'_succ, stirlingLoop, Nat.min_eq_right (by omega)]
    have hrow : stirlingRow (i + 1) (List.range' 1 2) S =
        .ok ((S.put (i + 1) 1 1).put (i + 1) 2 (2 ^ (i - 1) - 1)) := by
      show stirlingRow (i + 1) [1, 2] S = _
      rw [stirlingRow, Nat.add_sub_cancel, h1 i (le_refl i), if_neg (by omega), Nat.sub_self, h0 i hi (by omega)]
      dsimp only
      rw [stirlingRow, show (S.put (i + 1) 1 (1 * 1 + 0)) (i + 1 - 1) 2 = some (2 ^ (i - 2) - 1) by
        rw [SDict.put, if_neg (by omega)]; exact h2,
        show (S.put (i + 1) 1 (1 * 1 + 0)) (i + 1 - 2) (2 - 1) = some (if i + 1 - 2 = 0 then 0 else 1) by
        rw [SDict.put, if_neg (by omega)]; exact h1 _ (by omega)]
      dsimp only
      rw [stirlingRow]
      congr 2
      by_cases h : i = 1
      · subst h; rfl
      · rw [if_neg (by omega), show i - 1 = (i - 2) + 1 by omega, pow_succ]
        have := Nat.one_le_two_pow (n := i - 2)
        omega
    rw [hrow]
    obtain ⟨S', e, e'⟩ := ih (i + 1) (by omega) ((S.put (i + 1) 1 1).put (i + 1) 2 (2 ^ (i - 1) - 1))
      (fun a ha hb => by rw [SDict.put, if_neg (by omega), SDict.put, if_neg (by omega)]; exact h0 a ha (by omega))
      (fun a ha => by
        rw [SDict.put, if_neg (by omega), SDict.put]
        by_cases h : a = i + 1
        · rw [if_pos ⟨h, rfl⟩, if_neg (by omega)]
        · rw [if_neg (by omega)]; exact h1 a (by omega))
      (by rw [SDict.put, if_pos ⟨rfl, rfl⟩]; congr 1)
    refine ⟨S', e, ?_⟩
    rw [show i + (k + 1) = i + 1 + k by omega]
    exact e'

/-- C56, violated: every value of `stirling_number2(m, n)`.  Without blocks and with one block it is right.  With two
blocks it is `2 ^ (m - 2) - 1`, the number for one element less.  With three or more blocks it raises KeyError, except
for `(2, 3)`. -/
theorem C56_stirling_values (m n : Nat) : stirlingNumber2 m n =
    if n = 0 then .ok (if m = 0 then 1 else 0)
    else if n = 1 then .ok (if m = 0 then 0 else 1)
    else if n = 2 then (if m = 0 then .error .keyError else .ok (2 ^ (m - 2) - 1))
    else if n = 3 ∧ m = 2 then .ok 0 else .error .keyError := by
  rw [stirlingNumber2]
  by_cases n0 : n = 0
  · subst n0
    rw [loop_zero, if_pos rfl]
    dsimp only
    rw [init_val]
    by_cases h : m = 0 <;> simp [h]
  rw [if_neg n0]
  by_cases n1 : n = 1
  · subst n1
    rw [if_pos rfl]
    obtain ⟨S', e, e'⟩ := loop_one m 0 (stirlingInit m) (by rw [init_val]; simp)
      (fun a h1 h2 => by rw [init_val, if_neg (by omega), if_neg (by omega), if_pos (by omega)])
      (by rw [init_val]; simp)
    rw [Nat.zero_add] at e e'
    rw [e]
    dsimp only
    rw [e']
  rw [if_neg n1]
  by_cases n2 : n = 2
  · subst n2
    rw [if_pos rfl]
    cases m with
    | zero => rfl
    | succ m =>
      rw [if_neg (by omega), List.range'_succ, stirlingLoop]
      have hrow : stirlingRow 1 (List.range' 1 (min 1 2)) (stirlingInit (m + 1)) = .ok ((stirlingInit (m + 1)).put 1 1 1) := by
        show stirlingRow 1 [1] _ = _
        rw [stirlingRow, Nat.sub_self, init_val, if_pos (by omega), init_val, if_neg (by omega), if_pos (by omega)]
        rfl
      rw [hrow]
      obtain ⟨S', e, e'⟩ := loop_two m 1 (le_refl 1) ((stirlingInit (m + 1)).put 1 1 1)
        (fun a h1 h2 => by
          rw [SDict.put, if_neg (by omega), init_val, if_neg (by omega), if_neg (by omega), if_pos (by omega)])
        (fun a h1 => by
          rw [SDict.put]
          by_cases h : a = 1
          · rw [if_pos ⟨h, rfl⟩, if_neg (by omega)]
          · rw [if_neg (by omega), if_pos (by omega), init_val, if_pos (by omega)])
        (by rw [SDict.put, if_neg (by omega), init_val, if_pos (by omega)]; rfl)
      dsimp only
      rw [e]
      dsimp only
      rw [show m + 1 = 1 + m by omega, e']
  rw [if_neg n2]
  by_cases m3 : 3 ≤ m
  · rw [loop_large n (by omega) _ (fun i hi => (List.mem_range'_1.1 hi).1) (by rw [List.mem_range'_1]; omega) _
      (by rw [init_val, if_neg (by omega), if_neg (by omega), if_neg (by omega)]), if_neg (by omega)]
  · have hn : 3 ≤ n := by omega
    have hput : ∀ (S : SDict) (i j v a : Nat), j < 3 → (S.put i j v) a n = S a n := fun S i j v a hj => by
      rw [SDict.put, if_neg (by omega)]
    have key : ∃ S, stirlingLoop n (List.range' 1 m) (stirlingInit m) = .ok S ∧ S m n = stirlingInit m m n := by
      match m, m3 with
      | 0, _ => exact ⟨_, rfl, rfl⟩
      | 1, _ =>
        refine ⟨(stirlingInit 1).put 1 1 1, ?_, hput _ _ _ _ _ (by omega)⟩
        show stirlingLoop n [1] _ = _
        rw [stirlingLoop, Nat.min_eq_left (by omega)]
        rfl
      | 2, _ =>
        refine ⟨((((stirlingInit 2).put 1 1 1).put 2 1 1).put 2 2 0), ?_, ?_⟩
        · show stirlingLoop n [1, 2] _ = _
          rw [stirlingLoop, Nat.min_eq_left (by omega),
            show stirlingRow 1 (List.range' 1 1) (stirlingInit 2) = .ok ((stirlingInit 2).put 1 1 1) from rfl]
          dsimp only
          rw [stirlingLoop, Nat.min_eq_left (by omega)]
          rfl
        · rw [hput _ _ _ _ _ (by omega), hput _ _ _ _ _ (by omega), hput _ _ _ _ _ (by omega)]
      | m + 3, h => omega
    obtain ⟨S, e, e'⟩ := key
    rw [e]
    dsimp only
    rw [e', init_val]
    by_cases h : n = 3 ∧ m = 2
    · rw [if_pos h, if_pos (by omega)]
    · rw [if_neg h]
      by_cases hd : m ≤ m ∧ n = m + 1
      · omega
      · rw [if_neg hd, if_neg (by omega), if_neg (by omega)]

/-- C56, violated: exactly where `stirling_number2` returns a Stirling number of the second kind. -/
theorem C56_stirling_right (m n : Nat) :
    stirlingNumber2 m n = .ok (Nat.stirlingSecond m n) ↔ n ≤ 1 ∨ (n = 2 ∧ m = 1) ∨ n = 3 ∧ m = 2 := by
  rw [C56_stirling_values]
  by_cases n0 : n = 0
  · subst n0
    rw [if_pos rfl]
    cases m <;> simp
  rw [if_neg n0]
  by_cases n1 : n = 1
  · subst n1
    rw [if_pos rfl]
    cases m with
    | zero => simp
    | succ m => simp [Nat.stirlingSecond_one_right]
  rw [if_neg n1]
  by_cases n2 : n = 2
  · subst n2
    rw [if_pos rfl]
    match m with
    | 0 => simp
    | 1 => simp [Nat.stirlingSecond]
    | m + 2 =>
      have key : ∀ m, Nat.stirlingSecond (m + 2) 2 = 2 ^ (m + 1) - 1 := by
        intro m
        induction m with
        | zero => rfl
        | succ m ih =>
          rw [Nat.stirlingSecond_succ_succ, ih, Nat.stirlingSecond_one_right, pow_succ]
          have := Nat.one_le_two_pow (n := m + 1)
          omega
      rw [if_neg (by omega), key, Nat.add_sub_cancel]
      have := Nat.one_le_two_pow (n := m)
      constructor
      · intro h
        rw [Except.ok.injEq, pow_succ] at h
        omega
      · omega
  rw [if_neg n2]
  by_cases h : n = 3 ∧ m = 2
  · rw [if_pos h, h.1, h.2]
    simp [Nat.stirlingSecond]
  · rw [if_neg h]
    constructor
    · intro h'; cases h'
    · omega

example : stirlingNumber2 6 2 = .ok 15 ∧ Nat.stirlingSecond 6 2 = 31 ∧ stirlingNumber2 7 1 = .ok 1 ∧
    stirlingNumber2 7 5 = .error .keyError := by decide +kernel

end Rosemary.Props
