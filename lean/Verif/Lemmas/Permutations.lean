import Verif.Model.Generation
import Verif.Lemmas.Gen
import Verif.Lemmas.Lex

/-!
# The steps of the permutation generators
-/

namespace Rosemary.Generation

open Rosemary.Gen Rosemary.Lex

variable {α : Type} [LinearOrder α] [Inhabited α]

theorem sorted_le (l : List α) : (pySort l (· ≤ ·)).Pairwise (· ≤ ·) := by
  have := pairwise_pySort (le := fun a b : α => decide (a ≤ b))
    (fun a b c h1 h2 => by simp only [decide_eq_true_eq] at *; exact h1.trans h2)
    (fun a b => by rcases le_total a b with h | h <;> simp [h]) l
  exact this.imp (fun h => by simpa using h)

theorem get_eq {l : List α} {i : Nat} (h : i < l.length) : get l i = l[i] := by
  rw [get, List.getD_eq_getElem?_getD, List.getElem?_eq_getElem h]; rfl

theorem ext_get {l m : List α} (hl : l.length = m.length) (h : ∀ i, i < l.length → get l i = get m i) :
    l = m := by
  apply List.ext_getElem hl
  intro i h1 h2
  have := h i h1
  rwa [get_eq h1, get_eq h2] at this

@[simp] theorem length_swap (l : List α) (i j : Nat) : (swap l i j).length = l.length := by simp [swap]

theorem get_set {l : List α} {i k : Nat} {x : α} (hi : i < l.length) :
    get (l.set i x) k = if k = i then x else get l k := by
  simp only [get, List.getD_eq_getElem?_getD, List.getElem?_set]
  by_cases h : i = k
  · subst h; simp [hi]
  · rw [if_neg h, if_neg (fun e => h e.symm)]

theorem get_swap {l : List α} {i j k : Nat} (hi : i < l.length) (hj : j < l.length) :
    get (swap l i j) k = if k = j then get l i else if k = i then get l j else get l k := by
  rw [swap, get_set (by simpa using hj), get_set hi]

theorem swap_perm {l : List α} {i j : Nat} (hi : i < l.length) (hj : j < l.length) :
    (swap l i j).Perm l := by
  have key : ∀ i j, i < j → j < l.length → (swap l i j).Perm l ∧ (swap l j i).Perm l := by
    intro i j hij hj
    have hi : i < l.length := by omega
    have hd : l = l.take i ++ l[i] :: ((l.drop (i + 1)).take (j - i - 1) ++ l[j] :: l.drop (j + 1)) := by
      conv_lhs => rw [← List.take_append_drop i l, List.drop_eq_getElem_cons hi,
        ← List.take_append_drop (j - i - 1) (l.drop (i + 1)), List.drop_drop,
        show i + 1 + (j - i - 1) = j by omega, List.drop_eq_getElem_cons hj]
    have hs : swap l i j
        = l.take i ++ l[j] :: ((l.drop (i + 1)).take (j - i - 1) ++ l[i] :: l.drop (j + 1)) := by
      have hlen1 : (l.take i).length = i := by simp; omega
      have hlen2 : ((l.drop (i + 1)).take (j - i - 1)).length = j - i - 1 := by simp; omega
      generalize hp : l.take i = p at *
      generalize hq : (l.drop (i + 1)).take (j - i - 1) = q at *
      generalize hr : l.drop (j + 1) = r at *
      generalize hx : l[i] = x at *
      generalize hy : l[j] = y at *
      have e1 : get l i = x := by rw [get_eq hi, hx]
      have e2 : get l j = y := by rw [get_eq hj, hy]
      rw [swap, e1, e2, hd, List.set_append_right _ _ (by omega), hlen1, Nat.sub_self, List.set_cons_zero,
        List.set_append_right _ _ (by omega), hlen1]
      obtain ⟨k, hk⟩ : ∃ k, j - i = k + 1 := ⟨j - i - 1, by omega⟩
      rw [hk, List.set_cons_succ, List.set_append_right _ _ (by omega), hlen2]
      rw [show k - (j - i - 1) = 0 by omega, List.set_cons_zero]
    have hs2 : swap l j i = swap l i j := by
      apply ext_get (by simp)
      intro k hk
      rw [get_swap hj hi, get_swap hi hj]
      split_ifs <;> first | rfl | omega
    have : (swap l i j).Perm l := by
      conv_rhs => rw [hd]
      rw [hs]
      apply List.Perm.append_left
      generalize (l.drop (i + 1)).take (j - i - 1) = q
      refine (List.Perm.cons _ (List.perm_middle)).trans ?_
      refine (List.Perm.swap _ _ _).trans ?_
      exact List.Perm.cons _ List.perm_middle.symm
    exact ⟨this, hs2 ▸ this⟩
  rcases lt_trichotomy i j with h | rfl | h
  · exact (key i j h hj).1
  · have : swap l i i = l := by
      apply ext_get (by simp)
      intro k hk
      rw [get_swap hi hi]
      split_ifs with h
      · rw [h]
      · rfl
    rw [this]
  · exact (key j i h hi).2

theorem findDesc_spec (l : List α) (k : Nat) :
    match findDesc l k with
    | none => ∀ i, i < k → get l (i + 1) ≤ get l i
    | some j => j < k ∧ get l j < get l (j + 1) ∧ ∀ i, j < i → i < k → get l (i + 1) ≤ get l i := by
  induction k with
  | zero => simp [findDesc]
  | succ k ih =>
    rw [findDesc]
    by_cases h : get l k ≥ get l (k + 1)
    · rw [if_pos h]
      cases hd : findDesc l k with
      | none =>
        rw [hd] at ih
        dsimp only at ih ⊢
        intro i hi
        rcases Nat.lt_succ_iff_lt_or_eq.1 hi with hi | rfl
        · exact ih i hi
        · exact h
      | some j =>
        rw [hd] at ih
        dsimp only at ih ⊢
        refine ⟨by omega, ih.2.1, fun i h1 hi => ?_⟩
        rcases Nat.lt_succ_iff_lt_or_eq.1 hi with hi | rfl
        · exact ih.2.2 i h1 hi
        · exact h
    · rw [if_neg h]
      dsimp only
      exact ⟨by omega, not_le.1 h, fun i h1 h2 => by omega⟩

theorem findGt_spec (l : List α) (x : α) {m : Nat} (hx : x < get l m) (k : Nat) (hm : m ≤ k) :
    m ≤ findGt l x k ∧ findGt l x k ≤ k ∧ x < get l (findGt l x k) ∧
      ∀ i, findGt l x k < i → i ≤ k → get l i ≤ x := by
  induction k with
  | zero =>
    have : m = 0 := by omega
    subst this
    simp only [findGt]
    exact ⟨le_rfl, le_rfl, hx, fun i h1 h2 => by omega⟩
  | succ k ih =>
    rw [findGt]
    by_cases h : x ≥ get l (k + 1)
    · rw [if_pos h]
      have : m ≠ k + 1 := by rintro rfl; exact absurd hx (not_lt.2 h)
      obtain ⟨h1, h2, h3, h4⟩ := ih (by omega)
      refine ⟨h1, by omega, h3, fun i hi hk => ?_⟩
      by_cases e : i = k + 1
      · rw [e]; exact h
      · exact h4 i hi (by omega)
    · rw [if_neg h]
      exact ⟨hm, le_rfl, not_le.1 h, fun i h1 h2 => by omega⟩

@[simp] theorem length_revLoop (l : List α) (a b : Nat) : (revLoop l a b).length = l.length := by
  fun_induction revLoop l a b with
  | case1 l a b h ih => simpa using ih
  | case2 => rfl

theorem get_revLoop (l : List α) (a b : Nat) (hb : b < l.length) (k : Nat) :
    get (revLoop l a b) k = if a ≤ k ∧ k ≤ b then get l (a + b - k) else get l k := by
  fun_induction revLoop l a b with
  | case1 l a b h ih =>
    rw [ih (by simp; omega), get_swap (by omega) hb, get_swap (by omega) hb]
    by_cases h1 : a ≤ k ∧ k ≤ b
    · rw [if_pos h1]
      by_cases h2 : k = a
      · subst h2
        rw [if_neg (by omega), if_neg (by omega), if_pos rfl, show k + b - k = b by omega]
      · by_cases h3 : k = b
        · subst h3
          rw [if_neg (by omega), if_pos rfl, show a + k - k = a by omega]
        · rw [if_pos (by omega), if_neg (by omega), if_neg (by omega)]
          congr 1
          omega
    · rw [if_neg h1, if_neg (by omega), if_neg (by omega), if_neg (by omega)]
  | case2 l a b h =>
    by_cases h1 : a ≤ k ∧ k ≤ b
    · rw [if_pos h1]
      congr 1
      omega
    · rw [if_neg h1]

theorem revLoop_perm (l : List α) (a b : Nat) (hb : b < l.length) : (revLoop l a b).Perm l := by
  fun_induction revLoop l a b with
  | case1 l a b h ih => exact (ih (by simp; omega)).trans (swap_perm (by omega) hb)
  | case2 => exact List.Perm.refl _

/-- Pairwise relations from consecutive ones. -/
theorem mono_of_step (f : Nat → α) {a b : Nat} (h : ∀ i, a ≤ i → i < b → f (i + 1) ≤ f i) :
    ∀ i k, a ≤ i → i ≤ k → k ≤ b → f k ≤ f i := by
  intro i k hi hik hk
  induction k with
  | zero => have : i = 0 := by omega
            rw [this]
  | succ k ih =>
    rcases Nat.eq_or_lt_of_le hik with rfl | h1
    · exact le_rfl
    · exact (h k (by omega) (by omega)).trans (ih (by omega) (by omega))

theorem get_drop (l : List α) (a i : Nat) : get (l.drop a) i = get l (a + i) := by
  simp [get, List.getElem?_drop]

theorem pairwise_drop {r : α → α → Prop} {l : List α} {a : Nat}
    (h : ∀ i k, a ≤ i → i < k → k < l.length → r (get l i) (get l k)) : (l.drop a).Pairwise r := by
  rw [List.pairwise_iff_getElem]
  intro i k hi hk hik
  have := h (a + i) (a + k) (by omega) (by omega) (by simp at hk; omega)
  rwa [← get_drop, ← get_drop, get_eq hi, get_eq hk] at this

theorem mem_drop_iff {l : List α} {a : Nat} {x : α} :
    x ∈ l.drop a ↔ ∃ i, a ≤ i ∧ i < l.length ∧ get l i = x := by
  rw [List.mem_iff_getElem]
  constructor
  · rintro ⟨i, hi, rfl⟩
    refine ⟨a + i, by omega, by simp at hi; omega, ?_⟩
    rw [← get_drop, get_eq hi]
  · rintro ⟨i, h1, h2, rfl⟩
    refine ⟨i - a, by simp; omega, ?_⟩
    rw [← get_eq, get_drop]
    congr 1
    omega

theorem decomp {l : List α} {j : Nat} (hj : j < l.length) : l = l.take j ++ get l j :: l.drop (j + 1) := by
  rw [get_eq hj, ← List.drop_eq_getElem_cons hj, List.take_append_drop]

/-- `increase` at an ascent followed by a nonincreasing tail. -/
theorem increase_spec {l : List α} {j : Nat} (hj : j + 1 < l.length) (hasc : get l j < get l (j + 1))
    (hdesc : ∀ i, j < i → i + 1 < l.length → get l (i + 1) ≤ get l i) :
    (increase l j).Perm l ∧ (increase l j).length = l.length ∧
      (∃ b, get l j < b ∧ (∀ c ∈ l.drop (j + 1), get l j < c → b ≤ c) ∧
        (increase l j).take (j + 1) = l.take j ++ [b]) ∧
      ((increase l j).drop (j + 1)).Pairwise (· ≤ ·) := by
  have hmono := mono_of_step (get l) (a := j + 1) (b := l.length - 1)
    (fun i h1 h2 => hdesc i (by omega) (by omega))
  obtain ⟨g1, g2, g3, g4⟩ := findGt_spec l (get l j) hasc (l.length - 1) (by omega)
  have hl : findGt l (get l j) (l.length - 1) < l.length := by omega
  have hjl : j < l.length := by omega
  have hinc : increase l j = revLoop (swap l j (findGt l (get l j) (l.length - 1))) (j + 1) (l.length - 1) := rfl
  generalize findGt l (get l j) (l.length - 1) = m at *
  have hlen : (increase l j).length = l.length := by rw [hinc]; simp
  have hget : ∀ k, get (increase l j) k
      = if j + 1 ≤ k ∧ k ≤ l.length - 1 then get (swap l j m) (j + 1 + (l.length - 1) - k)
        else get (swap l j m) k := by
    intro k
    rw [hinc, get_revLoop _ _ _ (by simp; omega)]
  refine ⟨?_, hlen, ⟨get l m, g3, ?_, ?_⟩, ?_⟩
  · rw [hinc]
    exact (revLoop_perm _ _ _ (by simp; omega)).trans (swap_perm hjl hl)
  · intro c hc hlt
    obtain ⟨i, h1, h2, rfl⟩ := mem_drop_iff.1 hc
    rcases Nat.lt_or_ge m i with h | h
    · exact absurd (g4 i h (by omega)) (not_le.2 hlt)
    · exact hmono i m h1 h (by omega)
  · apply ext_get
    · simp; omega
    · intro k hk
      have hk : k < j + 1 := by simp at hk; omega
      have e1 : get ((increase l j).take (j + 1)) k = get (increase l j) k := by
        simp [get, List.getElem?_take, hk]
      rw [e1, hget, if_neg (by omega), get_swap hjl hl, if_neg (by omega)]
      by_cases h : k = j
      · subst h
        have : (l.take k).length = k := by simp; omega
        rw [if_pos rfl]
        simp only [get, List.getD_eq_getElem?_getD]
        rw [List.getElem?_append_right (by omega), this]
        simp
      · rw [if_neg h]
        simp only [get, List.getD_eq_getElem?_getD]
        rw [List.getElem?_append_left (by simp; omega), List.getElem?_take_of_lt (by omega)]
  · apply pairwise_drop
    intro i k h1 h2 h3
    rw [hlen] at h3
    rw [hget, hget, if_pos (by omega), if_pos (by omega), get_swap hjl hl, get_swap hjl hl]
    generalize hi' : j + 1 + (l.length - 1) - i = i'
    generalize hk' : j + 1 + (l.length - 1) - k = k'
    rw [if_neg (show i' ≠ j by omega), if_neg (show k' ≠ j by omega)]
    by_cases c1 : i' = m
    · rw [if_pos c1, if_neg (by omega)]
      exact (g3.trans_le (hmono k' m (by omega) (by omega) (by omega))).le
    · rw [if_neg c1]
      by_cases c2 : k' = m
      · rw [if_pos c2]
        exact g4 i' (by omega) (by omega)
      · rw [if_neg c2]
        exact hmono k' i' (by omega) (by omega) (by omega)

theorem desc_of_findDesc_none {l : List α} (h : findDesc l (l.length - 1) = none) :
    l.Pairwise (· ≥ ·) := by
  have := findDesc_spec l (l.length - 1)
  rw [h] at this
  dsimp only at this
  have hm := mono_of_step (get l) (a := 0) (b := l.length - 1) (fun i _ h2 => this i h2)
  have := pairwise_drop (r := (· ≥ ·)) (l := l) (a := 0)
    (fun i k h1 h2 h3 => hm i k (by omega) (by omega) (by omega))
  simpa using this

theorem increase_of_findDesc {l : List α} {j : Nat} (h : findDesc l (l.length - 1) = some j) :
    j + 1 < l.length ∧ (l.drop (j + 1)).Pairwise (· ≥ ·) ∧
    (increase l j).Perm l ∧ (increase l j).length = l.length ∧
      (∃ b, get l j < b ∧ (∀ c ∈ l.drop (j + 1), get l j < c → b ≤ c) ∧
        (increase l j).take (j + 1) = l.take j ++ [b]) ∧
      ((increase l j).drop (j + 1)).Pairwise (· ≤ ·) := by
  have := findDesc_spec l (l.length - 1)
  rw [h] at this
  dsimp only at this
  obtain ⟨h1, h2, h3⟩ := this
  refine ⟨by omega, ?_, increase_spec (by omega) h2 (fun i a b => h3 i a (by omega))⟩
  have hm := mono_of_step (get l) (a := j + 1) (b := l.length - 1) (fun i a b => h3 i (by omega) b)
  exact pairwise_drop (fun i k a b c => hm i k a (by omega) (by omega))

/-- `increase` goes to the next arrangement. -/
theorem increase_next {l : List α} {j : Nat} (h : findDesc l (l.length - 1) = some j) :
    l < increase l j ∧ ∀ t : List α, t.Perm l → l < t → increase l j ≤ t := by
  obtain ⟨hj, hsuf, hperm, hlen, ⟨b, hb1, hb2, hb3⟩, hasc⟩ := increase_of_findDesc h
  have hd := decomp (show j < l.length by omega)
  have hi : increase l j = l.take j ++ (b :: (increase l j).drop (j + 1)) := by
    conv_lhs => rw [← List.take_append_drop (j + 1) (increase l j), hb3]
    simp
  constructor
  · conv_lhs => rw [hd]
    rw [hi, append_lt_append_left, cons_lt_cons]
    exact Or.inl hb1
  · intro t ht hlt
    have h1 := succ_le (t := t) (l.take j) hsuf hb2 (by rw [← hd]; exact ht.subperm) (by rw [← hd]; exact hlt)
    rcases prefix_or_ext h1 with ⟨z, rfl⟩ | h2
    · rw [hi, List.append_assoc, List.singleton_append, append_le_append_left]
      refine cons_le_cons.2 (Or.inr ⟨rfl, le_of_perm_asc hasc ?_⟩)
      have : (l.take j ++ [b] ++ z).Perm (l.take j ++ [b] ++ (increase l j).drop (j + 1)) := by
        refine ht.trans (hperm.symm.trans ?_)
        conv_lhs => rw [hi]
        simp
      exact (List.perm_append_left_iff _).1 this
    · rw [hi]
      have := h2 ((increase l j).drop (j + 1))
      rw [List.append_assoc, List.singleton_append] at this
      exact this.le

theorem finite_of_subperm {l : List α} {P : Set (List α)} (h : ∀ t ∈ P, t.Subperm l) : P.Finite :=
  (finite_subperm l).subset h

/-- A generator that steps like `knuth_algorithm_l`, from any arrangement on. -/
theorem run_likePerm (l : List α) {step : List α → Step (List α)}
    (hstep : ∀ s, s.Perm l → step s = permStep s) :
    ∃ L, run step id l = some (L, none) ∧ L.Pairwise (· < ·) ∧
    ∀ t, t ∈ L ↔ t.Perm l ∧ l ≤ t := by
  obtain ⟨L, h1, h2, h3⟩ := run_enum (step := step) (out := id) {t | t.Perm l} (finite_perm l)
    (fun s => s.Perm l) (fun s h => h) (fun s s' hs hst => by
      rw [hstep s hs, permStep] at hst
      cases hf : findDesc s (s.length - 1) with
      | none => rw [hf] at hst; simp at hst
      | some j =>
        rw [hf] at hst
        simp only [Step.next.injEq] at hst
        subst hst
        obtain ⟨_, _, hp, _⟩ := increase_of_findDesc hf
        obtain ⟨n1, n2⟩ := increase_next hf
        refine ⟨hp.trans hs, n1, fun t ht hlt => ?_⟩
        rcases lt_or_eq_of_le (n2 t (List.Perm.trans ht hs.symm) hlt) with h | h
        · exact Or.inr h
        · exact Or.inl h.symm)
    (fun s hs hst t ht hlt => by
      rw [hstep s hs, permStep] at hst
      cases hf : findDesc s (s.length - 1) with
      | some j => rw [hf] at hst; simp at hst
      | none =>
        have ht : t.Perm s := List.Perm.trans ht hs.symm
        exact absurd hlt (not_lt.2 (le_of_subperm_desc (desc_of_findDesc_none hf) ht.subperm)))
    (fun s e hs hst => by
      rw [hstep s hs, permStep] at hst
      cases hf : findDesc s (s.length - 1) with
      | some j => rw [hf] at hst; simp at hst
      | none => rw [hf] at hst; simp at hst) l (List.Perm.refl l)
  refine ⟨L, h1, h2, fun t => ?_⟩
  rw [h3 t]
  simp only [Set.mem_setOf_eq, id]
  rw [le_iff_eq_or_lt, eq_comm]

/-- The invariant of the variation generators: what follows the yielded prefix is sorted. -/
def VarGood (l : List α) (s : List α × Nat) : Prop :=
  s.1.Perm l ∧ s.2 < s.1.length ∧ (s.1.drop (s.2 + 1)).Pairwise (· ≤ ·)

theorem increase_var_next {l : List α} {j : Nat} (h : findDesc l (l.length - 1) = some j) {t : List α}
    (ht : t.Subperm l) (hlt : l < t) : (increase l j).take (j + 1) ≤ t := by
  obtain ⟨hj, hsuf, hperm, hlen, ⟨b, hb1, hb2, hb3⟩, hasc⟩ := increase_of_findDesc h
  have hd := decomp (show j < l.length by omega)
  rw [hb3]
  exact succ_le (t := t) (l.take j) hsuf hb2 (by rw [← hd]; exact ht) (by rw [← hd]; exact hlt)

theorem lt_increase_take {l : List α} {j : Nat} (h : findDesc l (l.length - 1) = some j) :
    l < (increase l j).take (j + 1) := by
  obtain ⟨hj, hsuf, hperm, hlen, ⟨b, hb1, hb2, hb3⟩, hasc⟩ := increase_of_findDesc h
  have hd := decomp (show j < l.length by omega)
  conv_lhs => rw [hd]
  rw [hb3, append_lt_append_left]
  exact cons_lt_cons.2 (Or.inl hb1)

theorem take_succ_get {l : List α} {k : Nat} (h : k < l.length) : l.take (k + 1) = l.take k ++ [get l k] := by
  rw [get_eq h, List.take_succ_eq_append_getElem h]

theorem run_varStep {l : List α} {s : List α × Nat} (hs : VarGood l s) :
    ∃ L, run varStep (fun s => s.1.take (s.2 + 1)) s = some (L, none) ∧ L.Pairwise (· < ·) ∧
    ∀ t, t ∈ L ↔ t.Subperm l ∧ s.1.take (s.2 + 1) ≤ t := by
  obtain ⟨L, h1, h2, h3⟩ := run_enum (step := varStep) (out := fun s => s.1.take (s.2 + 1))
    {t | t.Subperm l} (finite_subperm l) (VarGood l)
    (fun s h => (List.take_sublist _ _).subperm.trans h.1.subperm)
    (fun s s' hs hst => by
      rw [varStep] at hst
      obtain ⟨g1, g2, g3⟩ := hs
      by_cases hc : s.2 + 1 < s.1.length
      · rw [if_pos hc] at hst
        simp only [Step.next.injEq] at hst
        subst hst
        dsimp only
        refine ⟨⟨g1, hc, ?_⟩, ?_, ?_⟩
        · rw [← List.drop_drop]
          exact g3.drop
        · rw [take_succ_get hc]
          conv_lhs => rw [← List.append_nil (s.1.take (s.2 + 1))]
          rw [append_lt_append_left]
          exact List.Lex.nil
        · intro t ht hlt
          rw [take_succ_get hc]
          have : s.1.take (s.2 + 1) ++ [get s.1 (s.2 + 1)] ≤ t := by
            rcases prefix_or_ext hlt.le with ⟨z, rfl⟩ | h
            · rw [append_le_append_left]
              have hz : z.Subperm (s.1.drop (s.2 + 1)) := by
                rw [← List.subperm_append_left (s.1.take (s.2 + 1)), List.take_append_drop]
                exact List.Subperm.trans ht g1.symm.subperm
              cases z with
              | nil => simp at hlt
              | cons c z =>
                have := take_le_of_subperm_asc g3 hz
                rw [List.drop_eq_getElem_cons hc, List.length_cons, List.take_succ_cons] at this
                rw [get_eq hc]
                rcases cons_le_cons.1 this with h | ⟨h, -⟩
                · exact cons_le_cons.2 (Or.inl h)
                · exact cons_le_cons.2 (Or.inr ⟨h, nil_le _⟩)
            · exact (h _).le
          rcases lt_or_eq_of_le this with h | h
          · exact Or.inr h
          · exact Or.inl h.symm
      · rw [if_neg hc] at hst
        have hfull : s.1.take (s.2 + 1) = s.1 := List.take_of_length_le (by omega)
        cases hf : findDesc s.1 (s.1.length - 1) with
        | none => rw [hf] at hst; simp at hst
        | some j =>
          rw [hf] at hst
          simp only [Step.next.injEq] at hst
          subst hst
          dsimp only
          rw [hfull]
          obtain ⟨hj, hsuf, hperm, hlen, -, hasc⟩ := increase_of_findDesc hf
          refine ⟨⟨hperm.trans g1, by rw [hlen]; omega, hasc⟩, lt_increase_take hf, fun t ht hlt => ?_⟩
          have := increase_var_next hf (List.Subperm.trans ht g1.symm.subperm) hlt
          rcases lt_or_eq_of_le this with h | h
          · exact Or.inr h
          · exact Or.inl h.symm)
    (fun s hs hst t ht hlt => by
      rw [varStep] at hst
      obtain ⟨g1, g2, g3⟩ := hs
      by_cases hc : s.2 + 1 < s.1.length
      · rw [if_pos hc] at hst; simp at hst
      · have hfull : s.1.take (s.2 + 1) = s.1 := List.take_of_length_le (by omega)
        rw [if_neg hc] at hst
        rw [hfull] at hlt
        cases hf : findDesc s.1 (s.1.length - 1) with
        | some j => rw [hf] at hst; simp at hst
        | none => exact absurd hlt (not_lt.2 (le_of_subperm_desc (desc_of_findDesc_none hf)
            (List.Subperm.trans ht g1.symm.subperm))))
    (fun s e hs hst => by
      rw [varStep] at hst
      by_cases hc : s.2 + 1 < s.1.length
      · rw [if_pos hc] at hst; simp at hst
      · rw [if_neg hc] at hst
        cases hf : findDesc s.1 (s.1.length - 1) with
        | some j => rw [hf] at hst; simp at hst
        | none => rw [hf] at hst; simp at hst) s hs
  refine ⟨L, h1, h2, fun t => ?_⟩
  rw [h3 t]
  simp only [Set.mem_setOf_eq]
  rw [le_iff_eq_or_lt, eq_comm]

theorem take_lt_iff {l t : List α} {k : Nat} (ht : t.length = k) (hk : k ≤ l.length) :
    l.take k < t ↔ l < t := by
  constructor
  · intro h
    rcases prefix_or_ext h.le with ⟨z, hz⟩ | h'
    · have : z = [] := by
        have := congrArg List.length hz
        rw [List.length_append, List.length_take] at this
        exact List.length_eq_zero_iff.1 (by omega)
      rw [this, List.append_nil] at hz
      rw [hz] at h
      exact absurd h (lt_irrefl _)
    · have := h' (l.drop k)
      rwa [List.take_append_drop] at this
  · intro h
    exact lt_of_le_of_lt (by conv_rhs => rw [← List.take_append_drop k l]
                             exact le_append _ _) h

theorem findAbove_spec (l : List α) (x : α) {m : Nat} (hm : x < get l m) :
    ∀ fuel j, j ≤ m → m < j + fuel →
      j ≤ findAbove l x fuel j ∧ findAbove l x fuel j ≤ m ∧ x < get l (findAbove l x fuel j) ∧
        ∀ i, j ≤ i → i < findAbove l x fuel j → get l i ≤ x := by
  intro fuel
  induction fuel with
  | zero => intro j h1 h2; omega
  | succ fuel ih =>
    intro j h1 h2
    rw [findAbove]
    by_cases h : get l j ≤ x
    · rw [if_pos h]
      have : j ≠ m := by rintro rfl; exact absurd hm (not_lt.2 h)
      obtain ⟨g1, g2, g3, g4⟩ := ih (j + 1) (by omega) (by omega)
      refine ⟨by omega, g2, g3, fun i hi hk => ?_⟩
      by_cases e : i = j
      · rw [e]; exact h
      · exact g4 i (by omega) hk
    · rw [if_neg h]
      exact ⟨le_rfl, h1, not_le.1 h, fun i a b => by omega⟩

/-- The invariant of `knuth_algorithm_l_rvariations`. -/
def RVarGood (l : List α) (r : Nat) (s : List α) : Prop :=
  s.Perm l ∧ (s.drop (r + 1)).Pairwise (· ≤ ·)

theorem sorted_of_drop {s : List α} {r : Nat} (h : (s.drop (r + 1)).Pairwise (· ≤ ·)) {i k : Nat}
    (hi : r + 1 ≤ i) (hik : i ≤ k) (hk : k < s.length) : get s i ≤ get s k := by
  rcases Nat.eq_or_lt_of_le hik with rfl | hik
  · exact le_rfl
  rw [List.pairwise_iff_getElem] at h
  have := h (i - (r + 1)) (k - (r + 1)) (by simp; omega) (by simp; omega) (by omega)
  rw [← get_eq, ← get_eq, get_drop, get_drop] at this
  rwa [show r + 1 + (i - (r + 1)) = i by omega, show r + 1 + (k - (r + 1)) = k by omega] at this

theorem take_revLoop {s : List α} {r b : Nat} (hb : b < s.length) :
    (revLoop s (r + 1) b).take (r + 1) = s.take (r + 1) := by
  apply ext_get (by simp)
  intro i hi
  have hi : i < r + 1 := by simp at hi; omega
  have e : ∀ m : List α, get (m.take (r + 1)) i = get m i := by
    intro m; simp [get, List.getElem?_take, hi]
  rw [e, e, get_revLoop _ _ _ hb, if_neg (by omega)]

theorem rvarStep_spec {l : List α} {r : Nat} (hr : r < l.length) {s : List α} (hs : RVarGood l r s) :
    (∃ s', rvarStep r s = .next s' ∧ RVarGood l r s' ∧ s.take (r + 1) < s'.take (r + 1) ∧
      ∀ t : List α, t.Subperm l → t.length = r + 1 → s.take (r + 1) < t → s'.take (r + 1) ≤ t) ∨
    (rvarStep r s = .stop ∧ ∀ t : List α, t.Subperm l → t.length = r + 1 → ¬ s.take (r + 1) < t) := by
  obtain ⟨hp, hasc⟩ := hs
  have hlen : s.length = l.length := hp.length_eq
  rw [rvarStep]
  dsimp only
  rw [if_neg (by omega)]
  by_cases h1 : get s r < get s (s.length - 1)
  · left
    rw [if_pos h1]
    have hrn : r + 1 ≤ s.length - 1 := by
      by_contra hc
      rw [show s.length - 1 = r by omega] at h1
      exact lt_irrefl _ h1
    obtain ⟨g1, g2, g3, g4⟩ := findAbove_spec s (get s r) h1 s.length (r + 1) hrn (by omega)
    generalize findAbove s (get s r) s.length (r + 1) = m at *
    have hrs : r < s.length := by omega
    have hms : m < s.length := by omega
    have htake : (swap s r m).take (r + 1) = s.take r ++ [get s m] := by
      rw [take_succ_get (by simp; omega), get_swap hrs hms, if_neg (by omega), if_pos rfl]
      congr 1
      apply ext_get (by simp)
      intro i hi
      have hi : i < r := by simp at hi; omega
      have e : ∀ m : List α, get (m.take r) i = get m i := by
        intro m; simp [get, List.getElem?_take, hi]
      rw [e, e, get_swap hrs hms, if_neg (by omega), if_neg (by omega)]
    refine ⟨_, rfl, ⟨(swap_perm hrs hms).trans hp, ?_⟩, ?_, ?_⟩
    · apply pairwise_drop
      intro i k a b c
      rw [length_swap] at c
      rw [get_swap hrs hms, get_swap hrs hms, if_neg (show i ≠ r by omega), if_neg (show k ≠ r by omega)]
      by_cases c1 : i = m
      · rw [if_pos c1, if_neg (by omega)]
        exact (g3.trans_le (sorted_of_drop hasc g1 (by omega) c)).le
      · rw [if_neg c1]
        by_cases c2 : k = m
        · rw [if_pos c2]
          exact g4 i a (by omega)
        · rw [if_neg c2]
          exact sorted_of_drop hasc a (by omega) c
    · rw [htake, take_succ_get hrs, append_lt_append_left]
      exact cons_lt_cons.2 (Or.inl g3)
    · intro t ht htl hlt
      rw [htake]
      refine succ_last_le (x := get s r) (rest := s.drop (r + 1)) (s.take r) ?_ ?_ ?_ ?_
      · intro c hc hxc
        obtain ⟨i, a, b, rfl⟩ := mem_drop_iff.1 hc
        rcases Nat.lt_or_ge i m with h | h
        · exact absurd (g4 i a h) (not_le.2 hxc)
        · exact sorted_of_drop hasc g1 h b
      · rw [← decomp hrs]
        exact ht.trans hp.symm.subperm
      · simp; omega
      · rwa [← take_succ_get hrs]
  · rw [if_neg h1]
    have hb : s.length - 1 < s.length := by omega
    have hget : ∀ k, get (revLoop s (r + 1) (s.length - 1)) k = if r + 1 ≤ k ∧ k ≤ s.length - 1 then
        get s (r + 1 + (s.length - 1) - k) else get s k := get_revLoop s _ _ hb
    have hel : (revLoop s (r + 1) (s.length - 1)).length = s.length := by simp
    have hep : (revLoop s (r + 1) (s.length - 1)).Perm s := revLoop_perm s _ _ hb
    have het : (revLoop s (r + 1) (s.length - 1)).take (r + 1) = s.take (r + 1) := take_revLoop hb
    generalize revLoop s (r + 1) (s.length - 1) = e at *
    have hdesc : ∀ i, r ≤ i → i + 1 < e.length → get e (i + 1) ≤ get e i := by
      intro i a b
      rw [hget, hget, if_pos (by omega)]
      by_cases c : i = r
      · rw [if_neg (by omega), c]
        refine le_trans ?_ (not_lt.1 h1)
        exact sorted_of_drop hasc (by omega) (by omega) (by omega)
      · rw [if_pos (by omega)]
        exact sorted_of_drop hasc (by omega) (by omega) (by omega)
    have hfd := findDesc_spec e r
    cases hf : findDesc e r with
    | none =>
      right
      rw [hf] at hfd
      dsimp only at hfd ⊢
      refine ⟨rfl, fun t ht htl hlt => ?_⟩
      rw [← het, take_lt_iff htl (by omega)] at hlt
      have hm := mono_of_step (get e) (a := 0) (b := e.length - 1) (fun i _ b => by
        by_cases c : i < r
        · exact hfd i c
        · exact hdesc i (by omega) (by omega))
      have hpw : e.Pairwise (· ≥ ·) := by
        have := pairwise_drop (r := (· ≥ ·)) (l := e) (a := 0)
          (fun i k h1 h2 h3 => hm i k (by omega) (by omega) (by omega))
        simpa using this
      exact absurd hlt (not_lt.2 (le_of_subperm_desc hpw
        (ht.trans (hp.symm.trans hep.symm).subperm)))
    | some j =>
      left
      rw [hf] at hfd
      dsimp only at hfd ⊢
      obtain ⟨f1, f2, f3⟩ := hfd
      have hdj : ∀ i, j < i → i + 1 < e.length → get e (i + 1) ≤ get e i := by
        intro i a b
        by_cases c : i < r
        · exact f3 i a c
        · exact hdesc i (by omega) b
      obtain ⟨i1, i2, ⟨b, b1, b2, b3⟩, i4⟩ := increase_spec (l := e) (j := j) (by omega) f2 hdj
      have hsuf : (e.drop (j + 1)).Pairwise (· ≥ ·) := by
        have hm := mono_of_step (get e) (a := j + 1) (b := e.length - 1)
          (fun i a b => hdj i (by omega) (by omega))
        exact pairwise_drop (fun i k a b c => hm i k a (by omega) (by omega))
      have hd := decomp (show j < e.length by omega)
      have htk : (increase e j).take (r + 1)
          = e.take j ++ (b :: ((increase e j).drop (j + 1)).take (r - j)) := by
        have : increase e j = e.take j ++ [b] ++ (increase e j).drop (j + 1) := by
          conv_lhs => rw [← List.take_append_drop (j + 1) (increase e j), b3]
        conv_lhs => rw [this]
        have hl1 : (e.take j).length = j := by simp; omega
        rw [List.append_assoc, List.take_append, List.take_of_length_le (by omega), hl1,
          List.singleton_append, show r + 1 - j = (r - j) + 1 by omega, List.take_succ_cons]
      refine ⟨_, rfl, ⟨i1.trans (hep.trans hp), ?_⟩, ?_, ?_⟩
      · rw [show r + 1 = (j + 1) + (r - j) by omega, ← List.drop_drop]
        exact i4.drop
      · rw [← het, htk, take_lt_iff (by
          have := congrArg List.length htk
          rw [← this, List.length_take, i2]; omega) (by omega)]
        conv_lhs => rw [hd]
        rw [append_lt_append_left]
        exact cons_lt_cons.2 (Or.inl b1)
      · intro t ht htl hlt
        rw [← het, take_lt_iff htl (by omega)] at hlt
        have hte : t.Subperm e := ht.trans (hp.symm.trans hep.symm).subperm
        have h1 := succ_le (t := t) (e.take j) hsuf b2 (by rw [← hd]; exact hte) (by rw [← hd]; exact hlt)
        rw [htk]
        rcases prefix_or_ext h1 with ⟨z, hz⟩ | h2
        · rw [hz, List.append_assoc, List.singleton_append, append_le_append_left]
          refine cons_le_cons.2 (Or.inr ⟨rfl, ?_⟩)
          have hzl : z.length = r - j := by
            have := congrArg List.length hz
            simp only [List.length_append, List.length_take, List.length_singleton] at this
            omega
          rw [← hzl]
          apply take_le_of_subperm_asc i4
          rw [← List.subperm_append_left (e.take j ++ [b]), ← hz, ← b3, List.take_append_drop]
          exact hte.trans i1.symm.subperm
        · have := h2 (((increase e j).drop (j + 1)).take (r - j))
          rw [List.append_assoc, List.singleton_append] at this
          exact this.le

theorem run_rvarStep {l : List α} {r : Nat} (hr : r < l.length) {s : List α} (hs : RVarGood l r s) :
    ∃ L, run (rvarStep r) (List.take (r + 1)) s = some (L, none) ∧ L.Pairwise (· < ·) ∧
    ∀ t, t ∈ L ↔ t.Subperm l ∧ t.length = r + 1 ∧ s.take (r + 1) ≤ t := by
  obtain ⟨L, h1, h2, h3⟩ := run_enum (step := rvarStep r) (out := List.take (r + 1))
    {t | t.Subperm l ∧ t.length = r + 1} (finite_of_subperm (l := l) (fun t h => h.1)) (RVarGood l r)
    (fun s h => ⟨(List.take_sublist _ _).subperm.trans h.1.subperm, by
      rw [List.length_take, h.1.length_eq]; omega⟩)
    (fun s s' hs hst => by
      rcases rvarStep_spec hr hs with ⟨s'', e, g1, g2, g3⟩ | ⟨e, -⟩
      · rw [e] at hst
        simp only [Step.next.injEq] at hst
        subst hst
        refine ⟨g1, g2, fun t ht hlt => ?_⟩
        rcases lt_or_eq_of_le (g3 t ht.1 ht.2 hlt) with h | h
        · exact Or.inr h
        · exact Or.inl h.symm
      · rw [e] at hst; simp at hst)
    (fun s hs hst t ht hlt => by
      rcases rvarStep_spec hr hs with ⟨s'', e, -⟩ | ⟨e, g⟩
      · rw [e] at hst; simp at hst
      · exact g t ht.1 ht.2 hlt)
    (fun s e hs hst => by
      rcases rvarStep_spec hr hs with ⟨s'', e, -⟩ | ⟨e, g⟩
      · rw [e] at hst; simp at hst
      · rw [e] at hst; simp at hst) s hs
  refine ⟨L, h1, h2, fun t => ?_⟩
  rw [h3 t]
  simp only [Set.mem_setOf_eq]
  rw [le_iff_eq_or_lt, eq_comm (a := s.take (r + 1)), and_assoc]

end Rosemary.Generation
