import Verif.Lemmas.Combinations

/-!
# The steps of `n_tuples`
-/

namespace Rosemary.Generation

open Rosemary.Gen Rosemary.Lex

theorem tupleLoop_spec (M A : List Int) (n : Nat) (hA : A.length = n + 1) (hM : M.length = n + 1)
    (h0 : gi A 0 ≠ gi M 0 - 1) (j : Nat) (hj : j ≤ n) :
    ∃ A' j', tupleLoop M A j = .ok (A', j') ∧ j' ≤ j ∧ A'.length = A.length ∧
      (∀ i, gi A' i = if j' < i ∧ i ≤ j then 0 else gi A i) ∧
      (∀ i, j' < i → i ≤ j → gi A i = gi M i - 1) ∧ gi A j' ≠ gi M j' - 1 := by
  induction j generalizing A with
  | zero =>
    rw [tupleLoop, gi_some (show 0 < A.length by omega), gi_some (show 0 < M.length by omega)]
    dsimp only
    rw [if_neg h0]
    exact ⟨A, 0, rfl, le_rfl, rfl, fun i => by rw [if_neg (by omega)], fun i a b => by omega, h0⟩
  | succ j ih =>
    rw [tupleLoop, gi_some (show j + 1 < A.length by omega), gi_some (show j + 1 < M.length by omega)]
    dsimp only
    by_cases h : gi A (j + 1) = gi M (j + 1) - 1
    · rw [if_pos h]
      have hs : ∀ i, gi (A.set (j + 1) 0) i = if i = j + 1 then 0 else gi A i := fun i => gi_set (by omega)
      obtain ⟨A', j', e, g1, g2, g3, g4, g5⟩ := ih (A.set (j + 1) 0) (by simpa using hA)
        (by rw [hs, if_neg (by omega)]; exact h0) (by omega)
      refine ⟨A', j', e, by omega, by simpa using g2, fun i => ?_, fun i a b => ?_, ?_⟩
      · rw [g3, hs]
        by_cases c1 : i = j + 1
        · rw [if_neg (by omega), if_pos c1, if_pos (by omega)]
        · by_cases c2 : j' < i ∧ i ≤ j
          · rw [if_pos c2, if_pos (by omega)]
          · rw [if_neg c2, if_neg c1, if_neg (by omega)]
      · by_cases c1 : i = j + 1
        · rw [c1]; exact h
        · have := g4 i a (by omega)
          rwa [hs, if_neg c1] at this
      · rwa [hs, if_neg (by omega)] at g5
    · rw [if_neg h]
      exact ⟨A, j + 1, rfl, le_rfl, rfl, fun i => by rw [if_neg (by omega)], fun i a b => by omega, h⟩

theorem drop_gi {A : List Int} {k : Nat} (h : k < A.length) : A.drop k = gi A k :: A.drop (k + 1) := by
  rw [List.drop_eq_getElem_cons h, gi, List.getD_eq_getElem?_getD, List.getElem?_eq_getElem h]; rfl

/-- Entries within the radices. -/
def InRadix (t M : List Int) : Prop := List.Forall₂ (fun a m => 0 ≤ a ∧ a < m) t M

theorem inRadix_cons_right {t M : List Int} {m : Int} : InRadix t (m :: M) ↔
    ∃ a t', t = a :: t' ∧ 0 ≤ a ∧ a < m ∧ InRadix t' M := by
  rw [InRadix, List.forall₂_cons_right_iff]
  constructor
  · rintro ⟨a, u, h1, h2, rfl⟩; exact ⟨a, u, rfl, h1.1, h1.2, h2⟩
  · rintro ⟨a, u, rfl, h1, h2, h3⟩; exact ⟨a, u, ⟨h1, h2⟩, h3, rfl⟩

/-- The tails that are all maximal are the largest. -/
theorem tail_max {M A : List Int} {n : Nat} (hA : A.length = n + 1) (hM : M.length = n + 1) (d k : Nat)
    (hd : k + d = n + 1) (h : ∀ i, k ≤ i → i ≤ n → gi A i = gi M i - 1) {t : List Int}
    (ht : InRadix t (M.drop k)) : t ≤ A.drop k := by
  induction d generalizing k t with
  | zero =>
    rw [List.drop_eq_nil_of_le (by omega)] at ht
    rw [List.forall₂_nil_right_iff.1 ht]
    exact nil_le _
  | succ d ih =>
    rw [drop_gi (by omega)] at ht ⊢
    obtain ⟨a, t', rfl, h1, h2, h3⟩ := inRadix_cons_right.1 ht
    have := h k le_rfl (by omega)
    rcases lt_or_eq_of_le (show a ≤ gi A k by omega) with e | e
    · exact cons_le_cons.2 (Or.inl e)
    · exact cons_le_cons.2 (Or.inr ⟨e, ih (k + 1) (by omega) (fun i a b => h i (by omega) b) h3⟩)

/-- The tails of zeros are the smallest. -/
theorem tail_min {M A : List Int} {n : Nat} (hA : A.length = n + 1) (hM : M.length = n + 1) (d k : Nat)
    (hd : k + d = n + 1) (h : ∀ i, k ≤ i → i ≤ n → gi A i = 0) {t : List Int}
    (ht : InRadix t (M.drop k)) : A.drop k ≤ t := by
  induction d generalizing k t with
  | zero => rw [List.drop_eq_nil_of_le (by omega)]; exact nil_le _
  | succ d ih =>
    rw [drop_gi (by omega)] at ht ⊢
    obtain ⟨a, t', rfl, h1, h2, h3⟩ := inRadix_cons_right.1 ht
    have := h k le_rfl (by omega)
    rcases lt_or_eq_of_le (show gi A k ≤ a by omega) with e | e
    · exact cons_le_cons.2 (Or.inl e)
    · exact cons_le_cons.2 (Or.inr ⟨e, ih (k + 1) (by omega) (fun i a b => h i (by omega) b) h3⟩)

theorem tail_succ {M A A' : List Int} {n j : Nat} (hA : A.length = n + 1) (hA' : A'.length = n + 1)
    (hM : M.length = n + 1) (hj : j ≤ n) (hmax : ∀ i, j < i → i ≤ n → gi A i = gi M i - 1)
    (hnew : ∀ i, i ≤ n → gi A' i = if j < i then 0 else if i = j then gi A j + 1 else gi A i)
    (d k : Nat) (hd : k + d = j) :
    A.drop k < A'.drop k ∧ ∀ t, InRadix t (M.drop k) → A.drop k < t → A'.drop k ≤ t := by
  induction d generalizing k with
  | zero =>
    have hk : k = j := by omega
    subst hk
    rw [drop_gi (A := A) (by omega), drop_gi (A := A') (by omega), drop_gi (A := M) (by omega), hnew k hj,
      if_neg (by omega), if_pos rfl]
    refine ⟨cons_lt_cons.2 (Or.inl (by omega)), fun t ht hlt => ?_⟩
    obtain ⟨a, t', rfl, h1, h2, h3⟩ := inRadix_cons_right.1 ht
    rcases cons_lt_cons.1 hlt with h | ⟨h, h'⟩
    · rcases lt_or_eq_of_le (show gi A k + 1 ≤ a by omega) with e | e
      · exact cons_le_cons.2 (Or.inl e)
      · exact cons_le_cons.2 (Or.inr ⟨e, tail_min hA' hM (n - k) (k + 1) (by omega) (fun i a b => by
          rw [hnew i b, if_pos (by omega)]) h3⟩)
    · exact absurd (tail_max hA hM (n - k) (k + 1) (by omega) (fun i a b => hmax i (by omega) b) h3)
        (not_le.2 h')
  | succ d ih =>
    obtain ⟨i1, i2⟩ := ih (k + 1) (by omega)
    rw [drop_gi (A := A) (by omega), drop_gi (A := A') (by omega), drop_gi (A := M) (by omega), hnew k (by omega),
      if_neg (by omega), if_neg (by omega)]
    refine ⟨cons_lt_cons.2 (Or.inr ⟨rfl, i1⟩), fun t ht hlt => ?_⟩
    obtain ⟨a, t', rfl, h1, h2, h3⟩ := inRadix_cons_right.1 ht
    rcases cons_lt_cons.1 hlt with h | ⟨h, h'⟩
    · exact cons_le_cons.2 (Or.inl h)
    · exact cons_le_cons.2 (Or.inr ⟨h, i2 t' h3 h'⟩)

theorem inRadix_iff {A M : List Int} (hl : A.length = M.length) :
    InRadix A M ↔ ∀ i, i < A.length → 0 ≤ gi A i ∧ gi A i < gi M i := by
  rw [InRadix, List.forall₂_iff_get]
  constructor
  · rintro ⟨-, h⟩ i hi
    have := h i hi (by omega)
    rw [gi, gi, List.getD_eq_getElem?_getD, List.getD_eq_getElem?_getD, List.getElem?_eq_getElem hi,
      List.getElem?_eq_getElem (by omega)]
    simpa using this
  · intro h
    refine ⟨hl, fun i h1 h2 => ?_⟩
    have := h i h1
    rw [gi, gi, List.getD_eq_getElem?_getD, List.getD_eq_getElem?_getD, List.getElem?_eq_getElem h1,
      List.getElem?_eq_getElem h2] at this
    simpa using this

theorem gi_drop (A : List Int) (k i : Nat) : gi (A.drop k) i = gi A (k + i) := by
  simp [gi, List.getElem?_drop]

/-- The invariant of `n_tuples`. -/
def TupleGood (n : Nat) (M A : List Int) : Prop :=
  A.length = n + 1 ∧ gi A 0 = 0 ∧ InRadix (A.drop 1) (M.drop 1)

theorem tupleStep_spec {n : Nat} {M A : List Int} (hM : M.length = n + 1) (hM0 : gi M 0 = 2)
    (h : TupleGood n M A) :
    (∃ A', tupleStep n M A = .next A' ∧ TupleGood n M A' ∧ A.drop 1 < A'.drop 1 ∧
      ∀ t, InRadix t (M.drop 1) → A.drop 1 < t → A'.drop 1 ≤ t) ∨
    (tupleStep n M A = .stop ∧ ∀ t, InRadix t (M.drop 1) → t ≤ A.drop 1) := by
  obtain ⟨h1, h2, h3⟩ := h
  obtain ⟨A1, j, e, g1, g2, g3, g4, g5⟩ := tupleLoop_spec M A n h1 hM (by rw [h2, hM0]; omega) n le_rfl
  rw [tupleStep, e]
  dsimp only
  by_cases hj : j = 0
  · right
    rw [if_pos hj]
    exact ⟨rfl, fun t ht => tail_max h1 hM n 1 (by omega) (fun i a b => g4 i (by omega) b) ht⟩
  · left
    rw [if_neg hj]
    have hl : (A1.modify j (· + 1)).length = n + 1 := by simp [g2, h1]
    have hnew : ∀ i, i ≤ n → gi (A1.modify j (· + 1)) i
        = if j < i then 0 else if i = j then gi A j + 1 else gi A i := by
      intro i hi
      rw [gi_modify (by omega), g3]
      by_cases c1 : i = j
      · rw [if_pos c1, if_neg (by omega), if_neg (by omega), if_pos c1, c1]
      · rw [if_neg c1]
        by_cases c2 : j < i
        · rw [if_pos ⟨c2, hi⟩, if_pos c2]
        · rw [if_neg (by omega), if_neg c2, if_neg c1]
    obtain ⟨s1, s2⟩ := tail_succ h1 hl hM (by omega) g4 hnew (j - 1) 1 (by omega)
    refine ⟨_, rfl, ⟨hl, ?_, ?_⟩, s1, s2⟩
    · rw [hnew 0 (by omega), if_neg (by omega), if_neg (by omega), h2]
    · rw [inRadix_iff (by simp [h1, hM])] at h3
      rw [inRadix_iff (by simp [g2, h1, hM])]
      intro i hi
      have hi : i < n := by simp [g2, h1] at hi; omega
      have := h3 i (by simp [h1]; omega)
      rw [gi_drop, gi_drop] at this ⊢
      rw [hnew _ (by omega)]
      by_cases c1 : j < 1 + i
      · rw [if_pos c1]
        omega
      · rw [if_neg c1]
        by_cases c2 : 1 + i = j
        · rw [if_pos c2, ← c2]
          rw [← c2] at g5
          omega
        · rw [if_neg c2]; exact this

theorem run_tuple {n : Nat} {M A : List Int} (hM : M.length = n + 1) (hM0 : gi M 0 = 2)
    (h : TupleGood n M A) :
    ∃ L, run (tupleStep n M) (List.drop 1) A = some (L, none) ∧ L.Pairwise (· < ·) ∧
      ∀ t, t ∈ L ↔ InRadix t (M.drop 1) ∧ A.drop 1 ≤ t := by
  obtain ⟨L, h1, h2, h3⟩ := run_enum (step := tupleStep n M) (out := List.drop 1) {t | InRadix t (M.drop 1)}
    (finite_forall₂ (M.drop 1)) (TupleGood n M) (fun s h => h.2.2)
    (fun s s' hs hst => by
      rcases tupleStep_spec hM hM0 hs with ⟨s'', e, g1, g2, g3⟩ | ⟨e, -⟩
      · rw [e] at hst
        simp only [Step.next.injEq] at hst
        subst hst
        refine ⟨g1, g2, fun d hd hlt => ?_⟩
        rcases lt_or_eq_of_le (g3 d hd hlt) with h | h
        · exact Or.inr h
        · exact Or.inl h.symm
      · rw [e] at hst; simp at hst)
    (fun s hs hst d hd hlt => by
      rcases tupleStep_spec hM hM0 hs with ⟨s'', e, -⟩ | ⟨e, g⟩
      · rw [e] at hst; simp at hst
      · exact absurd hlt (not_lt.2 (g d hd)))
    (fun s e hs hst => by
      rcases tupleStep_spec hM hM0 hs with ⟨s'', e, -⟩ | ⟨e, g⟩
      · rw [e] at hst; simp at hst
      · rw [e] at hst; simp at hst) A h
  refine ⟨L, h1, h2, fun d => ?_⟩
  rw [h3 d, le_iff_eq_or_lt, eq_comm]
  rfl

/-- A radix that is not positive keeps `n_tuples` counting forever. -/
theorem run_tuple_none {n : Nat} {M : List Int} (hM : M.length = n + 1) (hM0 : gi M 0 = 2) {p : Nat}
    (hp1 : 1 ≤ p) (hp2 : p ≤ n) (hp : gi M p ≤ 0) :
    run (tupleStep n M) (List.drop 1) (List.replicate (n + 1) 0) = none := by
  apply run_none (fun A => A.length = n + 1 ∧ gi A 0 = 0 ∧ 0 ≤ gi A p)
  · rintro A ⟨h1, h2, h3⟩
    obtain ⟨A1, j, e, g1, g2, g3, g4, g5⟩ := tupleLoop_spec M A n h1 hM (by rw [h2, hM0]; omega) n le_rfl
    have hj : p ≤ j := by
      by_contra hc
      have := g4 p (by omega) hp2
      omega
    refine ⟨_, by rw [tupleStep, e]; dsimp only; rw [if_neg (by omega)], by simp [g2, h1], ?_, ?_⟩
    · rw [gi_modify (by omega), if_neg (by omega), g3, if_neg (by omega), h2]
    · rw [gi_modify (by omega), g3, if_neg (show ¬ (j < p ∧ p ≤ n) by omega)]
      split_ifs <;> omega
  · simp [gi, List.getElem?_replicate, show p < n + 1 by omega]

end Rosemary.Generation
